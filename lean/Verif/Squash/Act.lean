import Verif.Squash.PropsView
/-! The effect that a squashed layer has on a file system below it, and how adding an entry changes that effect. -/
namespace Squash
open Go Spec

/-- the marker `k` in the directory `d` hides `q` -/
def covers (d : Path) (k : Str) (q : Path) : Prop :=
  isMarker k ∧ d <+: q ∧ d ≠ q ∧ (k = opqName ∨ d ++ [k.drop 4] <+: q)

/-- a marker of `S` covers the path -/
def covered (S : FS) (q : Path) : Prop := ∃ d k, S.has (d ++ [k]) ∧ covers d k q
/-- something above the path is not a directory -/
def fileAbove (S : FS) (q : Path) : Prop := ∃ d, S.nonDir d = true ∧ d <+: q ∧ d ≠ q
/-- nothing of the layers below is left at the path -/
def masked (S : FS) (q : Path) : Prop := covered S q ∨ fileAbove S q

open Classical in
/-- what becomes of `x` at path `q` when the tree `S` is laid over it -/
noncomputable def act (S : FS) (q : Path) (x : Option Node) : Option Node :=
  match S.get? q with
  | some nd => if nd.header.isSome then some nd else some (dirOr (if masked S q then none else x))
  | none => if masked S q then none else x

/-- entries that do not misuse markers -/
structure Spec.Regular (e : Entry) : Prop where
  inner : Visible (pathOf e).dropLast
  root : pathOf e = [] → e.header.typeflag = '5'
  mark : isMarkerEntry e → e.header.typeflag ≠ '5'
  deep : ∀ d x, pathOf e = d ++ [".wh.".toList ++ x] → isMarker x → pathOf e = d ++ [".wh..wh..opq".toList]

/-- the invariant of a tree built from such entries -/
structure WFS (S : FS) : Prop where
  inv : Inv false S
  plain : ∀ p, S.has p → ∀ c ∈ p, Plain c
  inner : ∀ p c, S.has (p ++ [c]) → Visible p
  mark : ∀ p c nd, S.get? (p ++ [c]) = some nd → isMarker c → nd.nonDir = true
  nil : ∀ q nd, S.get? q = some nd → nd.header = none → q ≠ [] → ∃ c, S.has (q ++ [c])
  name : ∀ q nd h, Visible q → S.get? q = some nd → nd.header = some h → h.name = render false q
  root : S.nonDir [] = false

/-- what has been put in place before the end of `Set`, when no directory above is a file -/
def base (S : FS) (cs : Path) (nd : Node) (q : Path) : Option Node :=
  if q = cs then some nd
  else if q <+: cs then some ((S.get? q).getD ⟨none, []⟩)
  else if cs <+: q then
    if nd.nonDir then none
    else if q = cs ++ [opqName] ∧ S.nonDir cs = true then some ⟨some opqHeader, []⟩
    else S.get? q
  else S.get? q

theorem dirOr_of_dir {S : FS} {q : Path} (h : S.nonDir q = false) : dirOr (S.get? q) = (S.get? q).getD ⟨none, []⟩ := by
  unfold FS.nonDir at h
  unfold dirOr
  cases e : S.get? q with
  | none => rfl
  | some nd => rw [e] at h; simp only at h; simp [h]

theorem stepped_reg {S : FS} {cs : Path} {nd : Node} (h : ∀ a, a <+: cs → a ≠ cs → S.nonDir a = false) (q : Path) :
    stepped S cs nd q = unm cs (base S cs nd) q := by
  have hw : ∀ q, walked S [] cs q = if q <+: cs then some ((S.get? q).getD ⟨none, []⟩) else S.get? q := by
    intro q
    unfold walked
    have x : ¬ (q.getLast? = some opqName ∧ q.dropLast <+: cs ∧ q.dropLast ≠ cs ∧ S.nonDir ([] ++ q.dropLast) = true) := by
      rintro ⟨_, h1, h2, h3⟩
      rw [List.nil_append, h _ h1 h2] at h3; simp at h3
    rw [if_neg x, List.nil_append]
    by_cases h1 : q <+: cs
    · by_cases h2 : q = cs
      · rw [if_neg (fun h => h.2 h2), if_pos h2, if_pos h1]
      · rw [if_pos ⟨h1, h2⟩, if_pos h1, dirOr_of_dir (h q h1 h2)]
    · rw [if_neg (fun h => h1 h.1), if_neg (fun h2 => h1 (by rw [h2]; exact List.prefix_refl _)), if_neg h1]
  have hb : placed (walked S [] cs) cs nd = base S cs nd := by
    funext q
    unfold placed base
    by_cases h1 : q = cs
    · rw [if_pos h1, if_pos h1]
    · rw [if_neg h1, if_neg h1, hw q]
      have hnd : (walked S [] cs cs).any Node.nonDir = S.nonDir cs := by
        rw [hw, if_pos (List.prefix_refl _), nonDir_any]
        cases S.get? cs <;> rfl
      rw [hnd]
      by_cases h2 : q <+: cs
      · have : ¬ cs <+: q := fun h3 => h1 (h2.eq_of_length_le h3.length_le)
        rw [if_pos h2, if_pos h2, if_neg this]
      · rw [if_neg h2, if_neg h2]
  unfold stepped
  rw [hb]

/-- a node of the new tree -/
theorem base_cases {S : FS} {cs : Path} {nd : Node} {q : Path} {y : Node} (h : base S cs nd q = some y) :
    q = cs ∧ y = nd ∨ q <+: cs ∧ q ≠ cs ∧ y = (S.get? q).getD ⟨none, []⟩ ∨
      q = cs ++ [opqName] ∧ nd.nonDir = false ∧ y = ⟨some opqHeader, []⟩ ∨
      ¬ q <+: cs ∧ (cs <+: q → nd.nonDir = false) ∧ S.get? q = some y := by
  unfold base at h
  by_cases h1 : q = cs
  · rw [if_pos h1] at h; injection h with h; exact .inl ⟨h1, h.symm⟩
  · rw [if_neg h1] at h
    by_cases h2 : q <+: cs
    · rw [if_pos h2] at h; injection h with h; exact .inr (.inl ⟨h2, h1, h.symm⟩)
    · rw [if_neg h2] at h
      by_cases h3 : cs <+: q
      · rw [if_pos h3] at h
        cases hn : nd.nonDir with
        | true => rw [hn] at h; simp at h
        | false =>
          rw [hn] at h
          simp only [Bool.false_eq_true, if_false] at h
          by_cases h4 : q = cs ++ [opqName] ∧ S.nonDir cs = true
          · rw [if_pos h4] at h; injection h with h
            exact .inr (.inr (.inl ⟨h4.1, rfl, h.symm⟩))
          · rw [if_neg h4] at h
            exact .inr (.inr (.inr ⟨h2, fun _ => rfl, h⟩))
      · rw [if_neg h3] at h
        exact .inr (.inr (.inr ⟨h2, fun h => absurd h h3, h⟩))

/-- the subtree removed by the end of `Set` -/
def removes (cs q : Path) : Prop :=
  match cs.getLast? with
  | none => [whPrefix ++ ['.']] <+: q
  | some c =>
    if isMarker c then
      if c = opqName then cs.dropLast <+: q ∧ q ≠ cs.dropLast ∧ ¬ cs <+: q
      else cs.dropLast ++ [c.drop 4] <+: q
    else cs.dropLast ++ [whPrefix ++ c] <+: q

theorem unm_eq {cs : Path} {V : Path → Option Node} (q : Path) :
    (removes cs q ∧ unm cs V q = none) ∨ (¬ removes cs q ∧ unm cs V q = V q) := by
  unfold removes unm
  cases hl : cs.getLast? with
  | none =>
    simp only
    by_cases h : [whPrefix ++ ['.']] <+: q
    · exact .inl ⟨h, if_pos h⟩
    · exact .inr ⟨h, if_neg h⟩
  | some c =>
    simp only
    by_cases hm : isMarker c
    · rw [if_pos hm, if_pos ((isMarker_iff c).mp hm)]
      by_cases ho : c = opqName
      · rw [if_pos ho, if_pos ho]
        by_cases h : cs.dropLast <+: q ∧ q ≠ cs.dropLast ∧ ¬ cs <+: q
        · exact .inl ⟨h, if_pos h⟩
        · exact .inr ⟨h, if_neg h⟩
      · rw [if_neg ho, if_neg ho, trim_eq hm]
        by_cases h : cs.dropLast ++ [c.drop 4] <+: q
        · exact .inl ⟨h, if_pos h⟩
        · exact .inr ⟨h, if_neg h⟩
    · rw [if_neg hm, if_neg (fun h => hm ((isMarker_iff c).mpr h))]
      by_cases h : cs.dropLast ++ [whPrefix ++ c] <+: q
      · exact .inl ⟨h, if_pos h⟩
      · exact .inr ⟨h, if_neg h⟩

theorem visible_prefix {p q : Path} (h : p <+: q) (hq : Visible q) : Visible p := fun c hc => hq c (h.subset hc)

theorem visible_snoc {p : Path} {c : Str} : Visible (p ++ [c]) ↔ Visible p ∧ ¬ isMarker c := by
  unfold Visible
  constructor
  · intro h; exact ⟨fun x hx => h x (by simp [hx]), h c (by simp)⟩
  · rintro ⟨h1, h2⟩ x hx
    rcases List.mem_append.mp hx with h | h
    · exact h1 x h
    · rw [List.mem_singleton.mp h]; exact h2

theorem wh_marker (c : Str) : isMarker (whPrefix ++ c) := List.prefix_append _ _

theorem marker_drop {c : Str} (h : isMarker c) : c = whPrefix ++ c.drop 4 := by
  obtain ⟨t, ht⟩ := h
  rw [← ht]; rfl

/-- prefixes of the entry's own path are never removed -/
theorem not_removes_prefix {cs a : Path} (h : a <+: cs) : ¬ removes cs a := by
  unfold removes
  rcases snoc_cases cs with h1 | ⟨p, c, h1⟩
  · rw [h1] at h ⊢
    rw [List.prefix_nil.mp h]
    simp only [List.getLast?_nil]
    intro h2
    simpa using List.prefix_nil.mp h2
  · have e : cs.getLast? = some c := by rw [h1]; simp
    rw [e]
    simp only
    rw [h1, List.dropLast_concat]
    rw [h1] at h
    have hlen : ∀ x, p ++ [x] <+: a → a = p ++ [c] ∧ x = c := by
      intro x hx
      have l1 := h.length_le
      have l2 := hx.length_le
      simp at l1 l2
      have e1 := h.eq_of_length (by simp; omega)
      rw [e1] at hx
      have := hx.eq_of_length (by simp)
      exact ⟨e1, by simpa using this⟩
    split
    · split
      · rintro ⟨h2, h3, h4⟩
        apply h4
        have l1 := h.length_le
        have l2 := h2.length_le
        have l3 : a.length ≠ p.length := fun h5 => h3 (h2.eq_of_length h5.symm).symm
        simp at l1
        rw [h.eq_of_length (by simp; omega)]; exact List.prefix_refl _
      · rename_i hm _
        intro h2
        have := (hlen _ h2).2
        have l := congrArg List.length this
        have l2 := congrArg List.length (marker_drop hm)
        rw [List.length_append] at l2
        have l3 : whPrefix.length = 4 := rfl
        omega
    · intro h2
      have := (hlen _ h2).2
      have l := congrArg List.length this
      rw [List.length_append] at l
      have l3 : whPrefix.length = 4 := rfl
      omega


/-- `S'` is `S` with an entry added, in the good case -/
structure Added (S : FS) (cs : Path) (nd : Node) (S' : FS) : Prop where
  wf : WFS S
  inv : Inv false S'
  get : ∀ q, S'.get? q = unm cs (base S cs nd) q
  plain : ∀ c ∈ cs, Plain c
  inner : Visible cs.dropLast
  hdr : ∃ h, nd.header = some h ∧ h.name = render false cs
  root : cs = [] → nd.nonDir = false
  mark : ∀ p c, cs = p ++ [c] → isMarker c → nd.nonDir = true
  deep : ∀ p c, cs = p ++ [c] → isMarker c → isMarker (c.drop 4) → c = opqName
  dirs : ∀ a, a <+: cs → a ≠ cs → S.nonDir a = false
  fresh : ∀ p c, cs = p ++ [c] → ¬ isMarker c → nd.nonDir = false → ¬ S.has (p ++ [whPrefix ++ c])

namespace Added
variable {S S' : FS} {cs : Path} {nd : Node}

theorem cases (h : Added S cs nd S') {q : Path} {y : Node} (hy : S'.get? q = some y) :
    ¬ removes cs q ∧ base S cs nd q = some y := by
  rw [h.get] at hy
  rcases unm_eq (cs := cs) (V := base S cs nd) q with ⟨_, h2⟩ | ⟨h1, h2⟩
  · rw [h2] at hy; simp at hy
  · rw [h2] at hy; exact ⟨h1, hy⟩

theorem keep (h : Added S cs nd S') {q : Path} (hq : ¬ removes cs q) : S'.get? q = base S cs nd q := by
  rw [h.get]
  rcases unm_eq (cs := cs) (V := base S cs nd) q with ⟨h1, _⟩ | ⟨_, h2⟩
  · exact absurd h1 hq
  · exact h2

theorem gone (h : Added S cs nd S') {q : Path} (hq : removes cs q) : S'.get? q = none := by
  rw [h.get]
  rcases unm_eq (cs := cs) (V := base S cs nd) q with ⟨_, h1⟩ | ⟨h1, _⟩
  · exact h1
  · exact absurd hq h1

theorem self (h : Added S cs nd S') : S'.get? cs = some nd := by
  rw [h.keep (not_removes_prefix (List.prefix_refl _))]
  unfold base; rw [if_pos rfl]

theorem above (h : Added S cs nd S') {q : Path} (h1 : q <+: cs) (h2 : q ≠ cs) : S'.get? q = some ((S.get? q).getD ⟨none, []⟩) := by
  rw [h.keep (not_removes_prefix h1)]
  unfold base; rw [if_neg h2, if_pos h1]

theorem opqDir (h : Added S cs nd S') (hnd : nd.nonDir = false) : Visible cs := by
  rcases snoc_cases cs with h1 | ⟨p, c, h1⟩
  · rw [h1]; intro x hx; simp at hx
  · have h2 := h.inner
    rw [h1, List.dropLast_concat] at h2
    rw [h1, visible_snoc]
    refine ⟨h2, fun hm => ?_⟩
    have := h.mark p c h1 hm
    rw [hnd] at this; simp at this

theorem wfs (h : Added S cs nd S') : WFS S' := by
  obtain ⟨hd, hh, hn⟩ := h.hdr
  refine ⟨h.inv, ?_, ?_, ?_, ?_, ?_, ?_⟩
  · intro p hp c hc
    obtain ⟨y, hy⟩ := Option.isSome_iff_exists.mp hp
    rcases base_cases (h.cases hy).2 with ⟨a, _⟩ | ⟨a, _⟩ | ⟨a, _⟩ | ⟨_, _, a⟩
    · rw [a] at hc; exact h.plain c hc
    · exact h.plain c (a.subset hc)
    · rw [a] at hc
      rcases List.mem_append.mp hc with hc | hc
      · exact h.plain c hc
      · rw [List.mem_singleton.mp hc]; exact plain_opq
    · exact h.wf.plain p (has_of a) c hc
  · intro p c hp
    obtain ⟨y, hy⟩ := Option.isSome_iff_exists.mp hp
    have hpre : p ++ [c] <+: cs → Visible p := by
      intro a
      rcases snoc_cases cs with h1 | ⟨p', c', h1⟩
      · rw [h1] at a; simpa using List.prefix_nil.mp a
      · have h2 := h.inner
        rw [h1, List.dropLast_concat] at h2
        rw [h1] at a
        rcases prefix_snoc_snoc.mp a with a | a
        · have := List.append_inj' a rfl
          rw [this.1]; exact h2
        · exact visible_prefix ((List.prefix_append _ _).trans a) h2
    rcases base_cases (h.cases hy).2 with ⟨a, _⟩ | ⟨a, _⟩ | ⟨a, b, _⟩ | ⟨_, _, a⟩
    · exact hpre (by rw [a]; exact List.prefix_refl _)
    · exact hpre a
    · rw [(List.append_inj' a rfl).1]; exact h.opqDir b
    · exact h.wf.inner p c (has_of a)
  · intro p c y hy hm
    rcases base_cases (h.cases hy).2 with ⟨a, b⟩ | ⟨a, b, _⟩ | ⟨a, _, b⟩ | ⟨_, _, a⟩
    · rw [b]; exact h.mark p c a.symm hm
    · exfalso
      rcases snoc_cases cs with h1 | ⟨p', c', h1⟩
      · rw [h1] at a; simpa using List.prefix_nil.mp a
      · have h2 := h.inner
        rw [h1, List.dropLast_concat] at h2
        rw [h1] at a b
        rcases prefix_snoc_snoc.mp a with a | a
        · exact b a
        · exact h2 c (a.subset (by simp)) hm
    · rw [b]; decide
    · exact h.wf.mark p c y a hm
  · intro q y hy hnil hq
    have hcase : q <+: cs ∨ ∃ c, S.has (q ++ [c]) := by
      rcases base_cases (h.cases hy).2 with ⟨a, _⟩ | ⟨a, _⟩ | ⟨_, _, b⟩ | ⟨_, _, a⟩
      · left; rw [a]; exact List.prefix_refl _
      · left; exact a
      · rw [b] at hnil; simp at hnil
      · right; exact h.wf.nil q y a hnil hq
    by_cases hp : q <+: cs
    · have hne : q ≠ cs := by
        intro e
        rw [e, h.self] at hy
        injection hy with hy
        rw [← hy, hh] at hnil; simp at hnil
      obtain ⟨t, ht⟩ := hp
      cases t with
      | nil => simp at ht; exact absurd ht hne
      | cons c t =>
        refine ⟨c, ?_⟩
        have : S'.has (q ++ [c] ++ t) := by
          rw [List.append_assoc]
          simp only [List.singleton_append]
          rw [ht]
          exact has_of h.self
        exact h.inv.prefix this
    · rcases hcase with a | ⟨c, hc⟩
      · exact absurd a hp
      · refine ⟨c, ?_⟩
        obtain ⟨z, hz⟩ := Option.isSome_iff_exists.mp hc
        have h3 := (h.cases hy)
        have hb : base S cs nd (q ++ [c]) = some z ∨ base S cs nd (q ++ [c]) = some ⟨some opqHeader, []⟩ := by
          unfold base
          have x1 : ¬ q ++ [c] = cs := fun e => hp (by rw [← e]; exact List.prefix_append _ _)
          have x2 : ¬ q ++ [c] <+: cs := fun e => hp ((List.prefix_append _ _).trans e)
          rw [if_neg x1, if_neg x2]
          by_cases x3 : cs <+: q ++ [c]
          · rw [if_pos x3]
            have x4 : cs <+: q := by
              rcases snoc_cases cs with h1 | ⟨p', c', h1⟩
              · rw [h1]; exact List.nil_prefix
              · rw [h1] at x3 x1 ⊢
                rcases prefix_snoc_snoc.mp x3 with a | a
                · exact absurd a.symm x1
                · exact a
            have x5 : nd.nonDir = false := by
              rcases base_cases h3.2 with ⟨a, _⟩ | ⟨a, _⟩ | ⟨_, a, _⟩ | ⟨_, a, _⟩
              · exact absurd (by rw [a]; exact List.prefix_refl _) hp
              · exact absurd a hp
              · exact a
              · exact a x4
            rw [x5]
            simp only [Bool.false_eq_true, if_false]
            split
            · right; rfl
            · left; exact hz
          · rw [if_neg x3]; left; exact hz
        have hnr : ¬ removes cs (q ++ [c]) := by
          intro hr
          apply h3.1
          unfold removes at hr ⊢
          rcases snoc_cases cs with h1 | ⟨p', c', h1⟩
          · rw [h1] at hr ⊢
            simp only [List.getLast?_nil] at hr ⊢
            rcases prefix_snoc_snoc (p := []).mp hr with a | a
            · have : q = [] := by
                have := congrArg List.length a
                simp at this; exact this
              exact absurd this hq
            · exact a
          · have e : cs.getLast? = some c' := by rw [h1]; simp
            rw [e] at hr ⊢
            simp only at hr ⊢
            rw [h1, List.dropLast_concat] at hr ⊢
            have key : ∀ x, p' ++ [x] <+: q ++ [c] → p' ++ [x] <+: q := by
              intro x hx
              rcases prefix_snoc_snoc.mp hx with a | a
              · have := (List.append_inj' a rfl).1
                exact absurd (by rw [← this, h1]; exact List.prefix_append _ _) hp
              · exact a
            split at hr
            · rename_i hm
              rw [if_pos hm]
              split at hr
              · rename_i ho
                rw [if_pos ho]
                obtain ⟨a, b, b'⟩ := hr
                refine ⟨?_, ?_, ?_⟩
                · rcases snoc_cases p' with h5 | ⟨p2, c2, h5⟩
                  · rw [h5]; exact List.nil_prefix
                  · rw [h5] at a b ⊢
                    rcases prefix_snoc_snoc.mp a with a | a
                    · exact absurd a.symm b
                    · exact a
                · intro e2
                  exact hp (by rw [e2, h1]; exact List.prefix_append _ _)
                · exact fun e2 => b' (e2.trans (List.prefix_append _ _))
              · rename_i ho
                rw [if_neg ho]
                exact key _ hr
            · rename_i hm
              rw [if_neg hm]
              exact key _ hr
        have := h.keep hnr
        rcases hb with hb | hb
        · rw [hb] at this; exact has_of this
        · rw [hb] at this; exact has_of this
  · intro q y hd' hv hy hy2
    rcases base_cases (h.cases hy).2 with ⟨a, b⟩ | ⟨a, _, b⟩ | ⟨a, _⟩ | ⟨_, _, a⟩
    · rw [b, hh] at hy2; injection hy2 with hy2
      rw [← hy2, hn, a]
    · cases e : S.get? q with
      | none => rw [e] at b; rw [b] at hy2; simp at hy2
      | some z => rw [e] at b; rw [b] at hy2; exact h.wf.name q z hd' hv e hy2
    · exact absurd (by rw [a]; simp) (visible_not_opq hv)
    · exact h.wf.name q y hd' hv a hy2
  · by_cases hc : cs = []
    · have := h.self
      rw [hc] at this
      unfold FS.nonDir; rw [this]; exact h.root hc
    · have := h.above (q := []) List.nil_prefix (Ne.symm hc)
      unfold FS.nonDir; rw [this]
      have h2 := h.wf.root
      unfold FS.nonDir at h2
      cases e : S.get? [] with
      | none => rfl
      | some z => rw [e] at h2; exact h2


/-- the entry is not a marker -/
def Ord (cs : Path) : Prop := ∀ p c, cs = p ++ [c] → ¬ isMarker c

theorem ord_visible (h : Added S cs nd S') (ho : Ord cs) : Visible cs := by
  rcases snoc_cases cs with h1 | ⟨p, c, h1⟩
  · rw [h1]; intro x hx; simp at hx
  · have h2 := h.inner
    rw [h1, List.dropLast_concat] at h2
    rw [h1, visible_snoc]
    exact ⟨h2, ho p c h1⟩

/-- what an ordinary entry removes is a marker and what is below -/
theorem removes_ord (ho : Ord cs) {q : Path} (hr : removes cs q) :
    cs = [] ∧ [whPrefix ++ ['.']] <+: q ∨ ∃ p c, cs = p ++ [c] ∧ p ++ [whPrefix ++ c] <+: q := by
  unfold removes at hr
  rcases snoc_cases cs with h1 | ⟨p, c, h1⟩
  · rw [h1] at hr; simp only [List.getLast?_nil] at hr; exact .inl ⟨h1, hr⟩
  · have e : cs.getLast? = some c := by rw [h1]; simp
    rw [e] at hr
    simp only at hr
    rw [if_neg (ho p c h1), h1, List.dropLast_concat] at hr
    exact .inr ⟨p, c, h1, hr⟩

theorem not_removes_visible (ho : Ord cs) {q : Path} (hq : Visible q) : ¬ removes cs q := by
  intro hr
  rcases removes_ord ho hr with ⟨_, h⟩ | ⟨p, c, _, h⟩
  · exact hq _ (h.subset (List.mem_singleton.mpr rfl)) (wh_marker _)
  · exact hq (whPrefix ++ c) (h.subset (by simp)) (wh_marker _)

theorem strict_prefix_snoc {cs d : Path} {k : Str} (h : cs <+: d ++ [k]) (hne : cs ≠ d ++ [k]) : cs <+: d := by
  rcases snoc_cases cs with h1 | ⟨p', c', h1⟩
  · rw [h1]; exact List.nil_prefix
  · rw [h1] at h hne ⊢
    rcases prefix_snoc_snoc.mp h with a | a
    · exact absurd a hne
    · exact a

theorem masked_ord (h : Added S cs nd S') (ho : Ord cs) {q : Path} (hq : Visible q) (hqd : ['.'] ∉ q)
    (hc : ¬ cs <+: q ∨ nd.nonDir = false ∧ S.nonDir cs = false) : masked S' q ↔ masked S q := by
  have hvcs := h.ord_visible ho
  have hm : ∀ d k, isMarker k → d ++ [k] ≠ cs := by
    intro d k hk e
    exact ho d k e.symm hk
  have hm2 : ∀ d k, isMarker k → ¬ d ++ [k] <+: cs := fun d k hk e => hvcs k (e.subset (by simp)) hk
  have hdn : cs <+: q → S.nonDir cs = false ∧ nd.nonDir = false := by
    intro h1
    rcases hc with h2 | h2
    · exact absurd h1 h2
    · exact ⟨h2.2, h2.1⟩
  have hcov : covered S' q ↔ covered S q := by
    constructor
    · rintro ⟨d, k, h1, h2⟩
      refine ⟨d, k, ?_, h2⟩
      obtain ⟨y, hy⟩ := Option.isSome_iff_exists.mp h1
      have h3 := (h.cases hy).2
      unfold base at h3
      rw [if_neg (hm d k h2.1), if_neg (hm2 d k h2.1)] at h3
      by_cases h4 : cs <+: d ++ [k]
      · have h5 := strict_prefix_snoc h4 (Ne.symm (hm d k h2.1))
        obtain ⟨h6, h7⟩ := hdn (h5.trans h2.2.1)
        rw [if_pos h4, h7, h6] at h3
        simp only [Bool.false_eq_true, if_false, and_false] at h3
        exact has_of h3
      · rw [if_neg h4] at h3; exact has_of h3
    · rintro ⟨d, k, h1, h2⟩
      refine ⟨d, k, ?_, h2⟩
      have hnr : ¬ removes cs (d ++ [k]) := by
        intro hr
        rcases removes_ord ho hr with ⟨e1, h3⟩ | ⟨p, c, e1, h3⟩
        · rw [← List.nil_append [whPrefix ++ ['.']]] at h3
          rcases prefix_snoc_snoc.mp h3 with h4 | h4
          · have h5 := List.append_inj' h4 rfl
            have hd : d = [] := h5.1.symm
            have hk : k = whPrefix ++ ['.'] := by simpa using h5.2.symm
            obtain ⟨_, _, _, h6⟩ := h2
            rw [hk, hd] at h6
            rcases h6 with h6 | h6
            · exact absurd h6 (by decide)
            · exact hqd (h6.subset (by simp [whPrefix]))
          · exact hq (whPrefix ++ ['.']) ((h4.trans h2.2.1).subset (by simp)) (wh_marker _)
        · rcases prefix_snoc_snoc.mp h3 with h4 | h4
          · have h5 := List.append_inj' h4 rfl
            have hk : k = whPrefix ++ c := by simpa using h5.2.symm
            have h6 := h2.2.2.2
            have hcs : cs <+: q := by
              rcases h6 with h6 | h6
              · exfalso
                have : c = ".wh..opq".toList := by
                  rw [hk] at h6
                  have : whPrefix ++ c = whPrefix ++ ".wh..opq".toList := h6
                  exact List.append_cancel_left this
                exact ho p c e1 (by rw [this]; decide)
              · rw [hk, ← h5.1] at h6
                rw [e1]; exact h6
            obtain ⟨h7, h8⟩ := hdn hcs
            refine h.fresh p c e1 (ho p c e1) h8 ?_
            rw [h4]; exact h1
          · exact hq (whPrefix ++ c) ((h4.trans h2.2.1).subset (by simp)) (wh_marker _)
      obtain ⟨y, hy⟩ := Option.isSome_iff_exists.mp h1
      unfold FS.has
      rw [h.keep hnr]
      unfold base
      rw [if_neg (hm d k h2.1), if_neg (hm2 d k h2.1)]
      by_cases h4 : cs <+: d ++ [k]
      · have h5 := strict_prefix_snoc h4 (Ne.symm (hm d k h2.1))
        obtain ⟨h6, h7⟩ := hdn (h5.trans h2.2.1)
        rw [if_pos h4, h7, h6]
        simp only [Bool.false_eq_true, if_false, and_false]
        exact h1
      · rw [if_neg h4]; exact h1
  have hfile : fileAbove S' q ↔ fileAbove S q := by
    have key : ∀ d, d <+: q → d ≠ q → S'.nonDir d = S.nonDir d := by
      intro d h1 h2
      have hv := visible_prefix h1 hq
      have hk := h.keep (not_removes_visible ho hv)
      by_cases e1 : d = cs
      · obtain ⟨a, b⟩ := hdn (by rw [← e1]; exact h1)
        unfold FS.nonDir at a ⊢
        rw [e1, h.self]
        rw [a]; exact b
      · by_cases e2 : d <+: cs
        · rw [h.dirs d e2 e1]
          unfold FS.nonDir
          rw [h.above e2 e1]
          have := h.dirs d e2 e1
          unfold FS.nonDir at this
          cases e : S.get? d with
          | none => rfl
          | some z => rw [e] at this; exact this
        · unfold base at hk
          rw [if_neg e1, if_neg e2] at hk
          by_cases e3 : cs <+: d
          · obtain ⟨a, b⟩ := hdn (e3.trans h1)
            rw [if_pos e3, b, a] at hk
            simp only [Bool.false_eq_true, if_false, and_false] at hk
            exact nonDir_eq hk
          · rw [if_neg e3] at hk; exact nonDir_eq hk
    constructor
    · rintro ⟨d, h1, h2, h3⟩; exact ⟨d, by rw [← key d h2 h3]; exact h1, h2, h3⟩
    · rintro ⟨d, h1, h2, h3⟩; exact ⟨d, by rw [key d h2 h3]; exact h1, h2, h3⟩
  unfold masked
  rw [hcov, hfile]


/-- a marker entry removes exactly what it covers, among the visible paths -/
theorem removes_marker {p : Path} {k : Str} (hk : isMarker k) {q : Path} (hq : Visible q) :
    removes (p ++ [k]) q ↔ covers p k q := by
  unfold removes covers
  have e : (p ++ [k]).getLast? = some k := by simp
  rw [e]
  simp only [List.dropLast_concat]
  rw [if_pos hk]
  have hnp : ¬ p ++ [k] <+: q := fun h => hq k (h.subset (by simp)) hk
  by_cases ho : k = opqName
  · rw [if_pos ho]
    constructor
    · rintro ⟨a, b, _⟩; exact ⟨hk, a, Ne.symm b, .inl ho⟩
    · rintro ⟨_, a, b, _⟩; exact ⟨a, Ne.symm b, hnp⟩
  · rw [if_neg ho]
    constructor
    · intro a
      refine ⟨hk, (List.prefix_append _ _).trans a, ?_, .inr a⟩
      intro e2
      rw [← e2] at a
      exact snoc_not_prefix a
    · rintro ⟨_, _, _, a | a⟩
      · exact absurd a ho
      · exact a

theorem covers_mono {p : Path} {k : Str} {d q : Path} (h : covers p k d) (h1 : d <+: q) : covers p k q := by
  obtain ⟨a, b, c, e⟩ := h
  refine ⟨a, b.trans h1, ?_, ?_⟩
  · intro e2
    rw [← e2] at h1
    exact c (b.eq_of_length_le h1.length_le)
  · rcases e with e | e
    · exact .inl e
    · exact .inr (e.trans h1)

theorem masked_marker (h : Added S cs nd S') {p : Path} {k : Str} (hcs : cs = p ++ [k]) (hk : isMarker k) {q : Path}
    (hq : Visible q) (hc : ¬ covers p k q) : masked S' q ↔ masked S q := by
  have hvp : Visible p := by
    have := h.inner
    rw [hcs, List.dropLast_concat] at this; exact this
  have hncs : ∀ {d}, d <+: q → ¬ cs <+: d := by
    intro d h1 h2
    rw [hcs] at h2
    exact hq k ((h2.trans h1).subset (by simp)) hk
  have hcov : covered S' q ↔ covered S q := by
    constructor
    · rintro ⟨d, k', h1, h2⟩
      refine ⟨d, k', ?_, h2⟩
      obtain ⟨y, hy⟩ := Option.isSome_iff_exists.mp h1
      have hne : d ++ [k'] ≠ cs := by
        intro e
        rw [hcs] at e
        have := List.append_inj' e rfl
        have hk' : k' = k := by simpa using this.2
        rw [this.1, hk'] at h2
        exact hc h2
      rcases base_cases (h.cases hy).2 with ⟨a, _⟩ | ⟨a, _⟩ | ⟨a, _⟩ | ⟨_, _, a⟩
      · exact absurd a hne
      · rw [hcs] at a hne
        rcases prefix_snoc_snoc.mp a with a | a
        · exact absurd a hne
        · exact absurd h2.1 (hvp k' (a.subset (by simp)))
      · exact absurd (by rw [(List.append_inj' a rfl).1]; exact List.prefix_refl _) (hncs h2.2.1)
      · exact has_of a
    · rintro ⟨d, k', h1, h2⟩
      refine ⟨d, k', ?_, h2⟩
      have hnr : ¬ removes cs (d ++ [k']) := by
        intro hr
        apply hc
        unfold removes at hr
        have e : cs.getLast? = some k := by rw [hcs]; simp
        rw [e] at hr
        simp only at hr
        rw [if_pos hk, hcs, List.dropLast_concat] at hr
        by_cases ho : k = opqName
        · rw [if_pos ho] at hr
          obtain ⟨a, b, _⟩ := hr
          have h3 : p <+: d := strict_prefix_snoc a (Ne.symm b)
          refine ⟨hk, h3.trans h2.2.1, ?_, .inl ho⟩
          intro e2
          rw [e2] at h3
          exact h2.2.2.1 (h2.2.1.eq_of_length_le h3.length_le)
        · rw [if_neg ho] at hr
          rcases prefix_snoc_snoc.mp hr with a | a
          · have := List.append_inj' a rfl
            have hk' : k.drop 4 = k' := by simpa using this.2
            exact absurd (h.deep p k hcs hk (by rw [hk']; exact h2.1)) ho
          · have h3 := a.trans h2.2.1
            refine ⟨hk, (List.prefix_append _ _).trans h3, ?_, .inr h3⟩
            intro e2
            rw [← e2] at h3
            exact snoc_not_prefix h3
      unfold FS.has
      rw [h.keep hnr]
      unfold base
      split
      · rfl
      · split
        · rfl
        · split
          · rename_i n1 n2 n3
            exact absurd (strict_prefix_snoc n3 (Ne.symm n1)) (hncs h2.2.1)
          · exact h1
  have hfile : fileAbove S' q ↔ fileAbove S q := by
    have key : ∀ d, d <+: q → d ≠ q → S'.nonDir d = S.nonDir d := by
      intro d h1 h2
      have hv := visible_prefix h1 hq
      have hnr : ¬ removes cs d := by
        rw [hcs, removes_marker hk hv]
        exact fun h3 => hc (covers_mono h3 h1)
      have hkp := h.keep hnr
      have e1 : d ≠ cs := fun e => hncs h1 (by rw [e]; exact List.prefix_refl _)
      by_cases e2 : d <+: cs
      · rw [h.dirs d e2 e1]
        unfold FS.nonDir
        rw [h.above e2 e1]
        have := h.dirs d e2 e1
        unfold FS.nonDir at this
        cases e : S.get? d with
        | none => rfl
        | some z => rw [e] at this; exact this
      · unfold base at hkp
        rw [if_neg e1, if_neg e2, if_neg (hncs h1)] at hkp
        exact nonDir_eq hkp
    constructor
    · rintro ⟨d, h1, h2, h3⟩; exact ⟨d, by rw [← key d h2 h3]; exact h1, h2, h3⟩
    · rintro ⟨d, h1, h2, h3⟩; exact ⟨d, by rw [key d h2 h3]; exact h1, h2, h3⟩
  unfold masked
  rw [hcov, hfile]

theorem dirOr_idem (x : Option Node) : dirOr (some (dirOr x)) = dirOr x := dirOr_dir (dirOr_nonDir x)

theorem act_congr {S T : FS} {q : Path} (h1 : S.get? q = T.get? q) (h2 : masked S q ↔ masked T q) (x : Option Node) :
    Squash.act S q x = Squash.act T q x := by
  unfold Squash.act
  rw [h1]
  cases T.get? q with
  | none => simp only; by_cases h : masked T q
            · rw [if_pos h, if_pos (h2.mpr h)]
            · rw [if_neg h, if_neg (fun h3 => h (h2.mp h3))]
  | some nd =>
    simp only
    by_cases h : masked T q
    · rw [if_pos h, if_pos (h2.mpr h)]
    · rw [if_neg h, if_neg (fun h3 => h (h2.mp h3))]

/-- ancestors -/
theorem act_above (h : Added S cs nd S') {q : Path} (h1 : q <+: cs) (h2 : q ≠ cs) (hm : masked S' q ↔ masked S q) (x : Option Node) :
    Squash.act S' q x = some (dirOr (Squash.act S q x)) := by
  have hd := h.dirs q h1 h2
  unfold Squash.act
  rw [h.above h1 h2]
  simp only
  unfold FS.nonDir at hd
  have hm' : ∀ y z : Option Node, (@ite _ (masked S' q) (Classical.propDecidable _) y z) = (@ite _ (masked S q) (Classical.propDecidable _) y z) := by
    intro y z
    by_cases h : masked S q
    · rw [if_pos h, if_pos (hm.mpr h)]
    · rw [if_neg h, if_neg (fun h3 => h (hm.mp h3))]
  cases e : S.get? q with
  | none =>
    simp only [Option.getD_none, Option.isSome_none, Bool.false_eq_true, if_false]
    rw [hm']
  | some z =>
    rw [e] at hd
    simp only at hd
    simp only [Option.getD_some]
    split
    · rw [dirOr_dir hd]
    · rw [dirOr_idem, hm']

theorem act_file {S : FS} {q : Path} {nd : Node} {hd : Header} (h : S.get? q = some nd) (hh : nd.header = some hd) (x : Option Node) :
    Squash.act S q x = some nd := by
  unfold Squash.act
  rw [h]
  simp only
  rw [hh]
  simp

theorem act_masked {S : FS} {q : Path} (h : S.get? q = none) (hm : masked S q) (x : Option Node) : Squash.act S q x = none := by
  unfold Squash.act
  rw [h]
  simp only
  rw [if_pos hm]

theorem applyAt_ord {V : View} {cs : Path} (hmk : Ord cs) (nd : Node) (q : Path) : applyAt V cs nd q =
    if q <+: cs ∧ q ≠ cs then some (dirOr (V q)) else if q = cs then some nd else if cs <+: q ∧ isFile nd then none else V q := by
  unfold applyAt
  rw [asDir_eq]
  by_cases h1 : q <+: cs ∧ q ≠ cs
  · rw [if_pos h1, if_pos h1]
  · rw [if_neg h1, if_neg h1]
    cases hl : cs.getLast? with
    | none => rfl
    | some c =>
      have h1 : ¬ isMarker c := by
        rcases snoc_cases cs with h1 | ⟨p, c', h1⟩
        · rw [h1] at hl; simp at hl
        · have e : c' = c := by rw [h1] at hl; simpa using hl
          rw [← e]; exact hmk p c' h1
      have h2 : ¬ c = ".wh..wh..opq".toList := fun e => h1 (by rw [e]; decide)
      simp only
      rw [if_neg h2, if_neg h1]

theorem applyAt_marker {V : View} {p : Path} {k : Str} (hk : isMarker k) (nd : Node) (q : Path) : applyAt V (p ++ [k]) nd q =
    if q <+: p ++ [k] ∧ q ≠ p ++ [k] then some (dirOr (V q))
    else if k = opqName then (if p <+: q then none else V q)
    else if p ++ [k.drop 4] <+: q then none else V q := by
  unfold applyAt
  rw [asDir_eq]
  by_cases h1 : q <+: p ++ [k] ∧ q ≠ p ++ [k]
  · rw [if_pos h1, if_pos h1]
  · rw [if_neg h1, if_neg h1]
    have e : (p ++ [k]).getLast? = some k := by simp
    rw [e]
    simp only [List.dropLast_concat]
    rw [if_pos hk]
    rfl

/-- the new tree acts like the old one followed by the entry -/
theorem act (h : Added S cs nd S') {q : Path} (hq : Visible q) (hqd : ['.'] ∉ q) (x : Option Node) :
    Squash.act S' q x = applyAt (fun _ => Squash.act S q x) cs nd q := by
  obtain ⟨hd, hh, _⟩ := h.hdr
  by_cases hmk : Ord cs
  · rw [applyAt_ord hmk]
    by_cases h1 : q <+: cs ∧ q ≠ cs
    · rw [if_pos h1]
      refine h.act_above h1.1 h1.2 (h.masked_ord hmk hq hqd (.inl ?_)) x
      exact fun h2 => h1.2 (h1.1.eq_of_length_le h2.length_le)
    · rw [if_neg h1]
      by_cases h2 : q = cs
      · rw [if_pos h2, h2]; exact act_file h.self hh x
      · rw [if_neg h2]
        have h1' : ¬ q <+: cs := fun h3 => h1 ⟨h3, h2⟩
        have hk := h.keep (not_removes_visible hmk hq)
        have hno : ¬ q = cs ++ [opqName] := fun h => visible_not_opq hq (by rw [h]; simp)
        unfold base at hk
        have x1 : ∀ P : Prop, ¬ (q = cs ++ [opqName] ∧ P) := fun P h => hno h.1
        rw [if_neg h2, if_neg h1', if_neg (x1 _)] at hk
        by_cases h3 : cs <+: q
        · rw [if_pos h3] at hk
          by_cases h4 : isFile nd
          · have y : cs <+: q ∧ isFile nd := ⟨h3, h4⟩
            rw [if_pos y]
            rw [if_pos ((isFile_iff nd).mp h4)] at hk
            refine act_masked hk (.inr ⟨cs, ?_, h3, Ne.symm h2⟩) x
            unfold FS.nonDir; rw [h.self]; exact (isFile_iff nd).mp h4
          · have y : ¬ (cs <+: q ∧ isFile nd) := fun h => h4 h.2
            rw [if_neg y]
            have hnd : nd.nonDir = false := by
              cases e : nd.nonDir with
              | false => rfl
              | true => exact absurd ((isFile_iff nd).mpr e) h4
            rw [hnd] at hk
            simp only [Bool.false_eq_true, if_false] at hk
            cases hf : S.nonDir cs with
            | false => exact act_congr hk (h.masked_ord hmk hq hqd (.inr ⟨hnd, hf⟩)) x
            | true =>
              have hnone := h.wf.inv.noDesc (h.wf.inv.leaf cs hf) h3 h2
              rw [act_masked hnone (.inr ⟨cs, hf, h3, Ne.symm h2⟩) x]
              refine act_masked (by rw [hk]; exact hnone) (.inl ⟨cs, opqName, ?_, isMarker_opq, h3, Ne.symm h2, .inl rfl⟩) x
              have hnr : ¬ removes cs (cs ++ [opqName]) := by
                intro hr
                rcases removes_ord hmk hr with ⟨e1, a⟩ | ⟨p, c, e1, a⟩
                · rw [e1] at a
                  have := a.eq_of_length (by simp)
                  simp only [List.nil_append, List.cons.injEq, and_true] at this
                  exact absurd this (by decide)
                · rcases prefix_snoc_snoc.mp a with b | b
                  · have := congrArg List.length b
                    rw [e1] at this
                    simp at this
                  · exact h.ord_visible hmk (whPrefix ++ c) (b.subset (by simp)) (wh_marker _)
              unfold FS.has
              rw [h.keep hnr]
              unfold base
              rw [if_neg (by simp), if_neg snoc_not_prefix, if_pos (List.prefix_append _ _), hnd]
              simp only [Bool.false_eq_true, if_false]
              simp [hf]
        · have y : ¬ (cs <+: q ∧ isFile nd) := fun h => h3 h.1
          rw [if_neg y]
          rw [if_neg h3] at hk
          exact act_congr hk (h.masked_ord hmk hq hqd (.inl h3)) x
  · obtain ⟨p, k, hcs, hk⟩ : ∃ p k, cs = p ++ [k] ∧ isMarker k := by
      rcases snoc_cases cs with h1 | ⟨p, c, h1⟩
      · exact absurd (fun p c e => by rw [h1] at e; simp at e) hmk
      · refine ⟨p, c, h1, ?_⟩
        refine Classical.byContradiction fun h2 => hmk ?_
        intro p' c' e
        rw [h1] at e
        have : c = c' := by simpa using (List.append_inj' e rfl).2
        rw [← this]; exact h2
    have hred := applyAt_marker (V := fun _ => Squash.act S q x) (p := p) hk nd q
    rw [← hcs] at hred
    rw [hred]
    have hncs : ¬ cs <+: q := by
      intro h2
      rw [hcs] at h2
      exact hq k (h2.subset (by simp)) hk
    by_cases h1 : q <+: cs ∧ q ≠ cs
    · rw [if_pos h1]
      refine h.act_above h1.1 h1.2 (h.masked_marker hcs hk hq ?_) x
      rw [← removes_marker hk hq, ← hcs]
      exact not_removes_prefix h1.1
    · rw [if_neg h1]
      have h1' : ¬ q <+: p := by
        intro h2
        apply h1
        rw [hcs]
        refine ⟨h2.trans (List.prefix_append _ _), ?_⟩
        intro e
        rw [e] at h2
        exact snoc_not_prefix h2
      have hcov : (if k = opqName then (if p <+: q then none else Squash.act S q x)
          else if p ++ [k.drop 4] <+: q then none else Squash.act S q x) =
          @ite _ (covers p k q) (Classical.propDecidable _) none (Squash.act S q x) := by
        by_cases hc : covers p k q
        · rw [if_pos hc]
          rcases hc.2.2.2 with a | a
          · rw [if_pos a, if_pos hc.2.1]
          · by_cases ho : k = opqName
            · rw [if_pos ho, if_pos hc.2.1]
            · rw [if_neg ho, if_pos a]
        · rw [if_neg hc]
          split
          · rename_i ho
            rw [if_neg]
            intro h2
            exact hc ⟨hk, h2, fun e => h1' (by rw [e]; exact List.prefix_refl _), .inl ho⟩
          · rw [if_neg]
            intro h2
            exact hc ⟨hk, (List.prefix_append _ _).trans h2, fun e => h1' (by rw [e]; exact List.prefix_refl _), .inr h2⟩
      rw [hcov]
      by_cases hc : covers p k q
      · rw [if_pos hc]
        refine act_masked (h.gone (by rw [hcs, removes_marker hk hq]; exact hc)) (.inl ⟨p, k, ?_, hc⟩) x
        rw [← hcs]; exact has_of h.self
      · rw [if_neg hc]
        refine act_congr ?_ (h.masked_marker hcs hk hq hc) x
        rw [h.keep (by rw [hcs, removes_marker hk hq]; exact hc)]
        unfold base
        rw [if_neg (fun e => hncs (by rw [e]; exact List.prefix_refl _)), if_neg, if_neg hncs]
        intro h2
        exact h1 ⟨h2, fun e => hncs (by rw [e]; exact List.prefix_refl _)⟩

end Added

end Squash
