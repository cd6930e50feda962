import Verif.Squash.Act
/-! The form of a loaded tree, wherever its entries came to be put. -/
namespace Squash
open Go Spec

/-- the form of a tree built from entries that do not misuse markers -/
structure Shape (S : FS) : Prop where
  plain : ∀ p, S.has p → ∀ c ∈ p, Plain c
  inner : ∀ p c, S.has (p ++ [c]) → Visible p
  mark : ∀ p c nd, S.get? (p ++ [c]) = some nd → isMarker c → nd.nonDir = true
  nil : ∀ q nd, S.get? q = some nd → nd.header = none → q ≠ [] → ∃ c, S.has (q ++ [c])
  bare : ∀ q nd, S.get? q = some nd → nd.header = none → nd = ⟨none, []⟩
  root : S.nonDir [] = false

theorem shape_empty : Shape emptyFS := by
  have hg : ∀ p nd, emptyFS.get? p = some nd → p = [] ∧ nd = ⟨none, []⟩ := by
    intro p nd h
    rw [get?_emptyFS] at h
    unfold emptyView at h
    split at h
    · rename_i hp; injection h with h; exact ⟨hp, h.symm⟩
    · simp at h
  have hh : ∀ p, emptyFS.has p → p = [] := by
    intro p h
    obtain ⟨nd, h⟩ := Option.isSome_iff_exists.mp h
    exact (hg p nd h).1
  refine ⟨?_, ?_, ?_, ?_, fun q nd hq _ => (hg q nd hq).2, by unfold FS.nonDir; rw [get?_emptyFS]; rfl⟩
  · intro p hp c hc; rw [hh p hp] at hc; simp at hc
  · intro p c hp; have := hh _ hp; simp at this
  · intro p c nd hp; have := (hg _ _ hp).1; simp at this
  · intro q nd hq _ hne; exact absurd (hg _ _ hq).1 hne

/-- where the nodes of the next state come from -/
theorem stepped_cases {S : FS} {cs : Path} {nd : Node} {q : Path} {y : Node} (h : stepped S cs nd q = some y) : ¬ removes cs q ∧
    (q = cs ∧ y = nd ∨ q <+: cs ∧ q ≠ cs ∧ y = dirOr (S.get? q) ∨
      (∃ a, q = a ++ [opqName] ∧ a <+: cs ∧ (a = cs → nd.nonDir = false) ∧ y = ⟨some opqHeader, []⟩) ∨
      ¬ q <+: cs ∧ (cs <+: q → nd.nonDir = false) ∧ S.get? q = some y) := by
  unfold stepped at h
  rcases unm_eq (cs := cs) (V := placed (walked S [] cs) cs nd) q with ⟨_, h2⟩ | ⟨h1, h2⟩
  · rw [h2] at h; simp at h
  · refine ⟨h1, ?_⟩
    rw [h2] at h
    have hw : q ≠ cs → walked S [] cs q = some y → (cs <+: q → nd.nonDir = false) → (q <+: cs ∧ q ≠ cs ∧ y = dirOr (S.get? q) ∨
      (∃ a, q = a ++ [opqName] ∧ a <+: cs ∧ (a = cs → nd.nonDir = false) ∧ y = ⟨some opqHeader, []⟩) ∨
      ¬ q <+: cs ∧ (cs <+: q → nd.nonDir = false) ∧ S.get? q = some y) := by
      intro hne hw hd
      unfold walked at hw
      by_cases h3 : q <+: cs
      · rw [if_pos ⟨h3, hne⟩, List.nil_append] at hw
        injection hw with hw
        exact .inl ⟨h3, hne, hw.symm⟩
      · rw [if_neg (fun h => h3 h.1)] at hw
        by_cases h4 : q.getLast? = some opqName ∧ q.dropLast <+: cs ∧ q.dropLast ≠ cs ∧ S.nonDir ([] ++ q.dropLast) = true
        · rw [if_pos h4] at hw
          injection hw with hw
          refine .inr (.inl ⟨q.dropLast, ?_, h4.2.1, fun h => absurd h h4.2.2.1, hw.symm⟩)
          rcases snoc_cases q with rfl | ⟨a, k, rfl⟩
          · simp at h4
          · rw [List.dropLast_concat]
            have := h4.1
            simp at this
            rw [this]
        · rw [if_neg h4, if_neg hne, List.nil_append] at hw
          exact .inr (.inr ⟨h3, hd, hw⟩)
    unfold placed at h
    by_cases h3 : q = cs
    · rw [if_pos h3] at h; injection h with h; exact .inl ⟨h3, h.symm⟩
    · right
      rw [if_neg h3] at h
      by_cases h4 : cs <+: q
      · rw [if_pos h4] at h
        by_cases h5 : nd.nonDir = true
        · rw [if_pos h5] at h; simp at h
        · rw [if_neg h5] at h
          have h5' : nd.nonDir = false := by simpa using h5
          split at h
          · rename_i h6
            injection h with h
            exact .inr (.inl ⟨cs, h6.1, List.prefix_refl _, fun _ => h5', h.symm⟩)
          · exact hw h3 h (fun _ => h5')
      · rw [if_neg h4] at h
        exact hw h3 h (fun h => absurd h h4)

/-- what is not on or above the entry's path, and is not removed, stays -/
theorem stepped_stays {S : FS} {cs : Path} {nd : Node} {q : Path} (hr : ¬ removes cs q) (hq : ¬ q <+: cs) (hd : cs <+: q → nd.nonDir = false)
    (h : S.has q) : (stepped S cs nd q).isSome = true := by
  unfold stepped
  rcases unm_eq (cs := cs) (V := placed (walked S [] cs) cs nd) q with ⟨h1, _⟩ | ⟨_, h2⟩
  · exact absurd h1 hr
  · rw [h2]
    have hw : (walked S [] cs q).isSome = true := by
      unfold walked
      rw [if_neg (fun h => hq h.1)]
      split
      · rfl
      · split
        · rfl
        · exact h
    unfold placed
    split
    · rfl
    · split
      · rename_i h4
        rw [hd h4]
        simp only [Bool.false_eq_true, if_false]
        split
        · rfl
        · exact hw
      · exact hw

theorem not_removes_child {cs q : Path} {c : Str} (hp : ¬ q <+: cs) (hq : q ≠ []) (h3 : ¬ removes cs q) : ¬ removes cs (q ++ [c]) := by
  intro hr
  apply h3
  unfold removes at hr ⊢
  rcases snoc_cases cs with h1 | ⟨p', c', h1⟩
  · rw [h1] at hr ⊢
    simp only [List.getLast?_nil] at hr ⊢
    rcases prefix_snoc_snoc (p := []).mp hr with a | a
    · have : q = [] := by
        have := congrArg List.length a
        simp at this; exact this
      exact absurd this hq
    · exact a
  · have e : cs.getLast? = some c' := by rw [h1]; simp
    rw [e] at hr ⊢
    simp only at hr ⊢
    rw [h1, List.dropLast_concat] at hr ⊢
    have key : ∀ x, p' ++ [x] <+: q ++ [c] → p' ++ [x] <+: q := by
      intro x hx
      rcases prefix_snoc_snoc.mp hx with a | a
      · have := (List.append_inj' a rfl).1
        exact absurd (by rw [← this, h1]; exact List.prefix_append _ _) hp
      · exact a
    split at hr
    · rename_i hm
      rw [if_pos hm]
      split at hr
      · rename_i ho
        rw [if_pos ho]
        obtain ⟨a, b, b'⟩ := hr
        refine ⟨?_, ?_, ?_⟩
        · rcases snoc_cases p' with h5 | ⟨p2, c2, h5⟩
          · rw [h5]; exact List.nil_prefix
          · rw [h5] at a b ⊢
            rcases prefix_snoc_snoc.mp a with a | a
            · exact absurd a.symm b
            · exact a
        · intro e2
          exact hp (by rw [e2, h1]; exact List.prefix_append _ _)
        · exact fun e2 => b' (e2.trans (List.prefix_append _ _))
      · rename_i ho
        rw [if_neg ho]
        exact key _ hr
    · rename_i hm
      rw [if_neg hm]
      exact key _ hr

theorem shape_step {S S' : FS} {cs : Path} {nd : Node} (h : Shape S) (hi : Inv false S') (hg : ∀ q, S'.get? q = stepped S cs nd q)
    (hpl : ∀ c ∈ cs, Plain c) (hin : Visible cs.dropLast) (hh : nd.header.isSome = true) (hr : cs = [] → nd.nonDir = false)
    (hm : ∀ p c, cs = p ++ [c] → isMarker c → nd.nonDir = true) : Shape S' := by
  have hcase : ∀ {q y}, S'.get? q = some y → _ := fun {q y} e => stepped_cases (S := S) (cs := cs) (nd := nd) (q := q) (y := y) (by rw [← hg]; exact e)
  have hpre : ∀ p c, p ++ [c] <+: cs → Visible p := by
    intro p c a
    rcases snoc_cases cs with h1 | ⟨p', c', h1⟩
    · rw [h1] at a; simpa using List.prefix_nil.mp a
    · rw [h1, List.dropLast_concat] at hin
      rw [h1] at a
      rcases prefix_snoc_snoc.mp a with a | a
      · have := List.append_inj' a rfl
        rw [this.1]; exact hin
      · exact visible_prefix ((List.prefix_append _ _).trans a) hin
  have hself : S'.get? cs = some nd := by
    rw [hg]
    unfold stepped
    rcases unm_eq (cs := cs) (V := placed (walked S [] cs) cs nd) cs with ⟨h1, _⟩ | ⟨_, h2⟩
    · exact absurd h1 (not_removes_prefix (List.prefix_refl _))
    · rw [h2]; unfold placed; rw [if_pos rfl]
  refine ⟨?_, ?_, ?_, ?_, ?_, ?_⟩
  · intro p hp c hc
    obtain ⟨y, hy⟩ := Option.isSome_iff_exists.mp hp
    rcases (hcase hy).2 with ⟨a, _⟩ | ⟨a, _⟩ | ⟨d, a, b, _⟩ | ⟨_, _, a⟩
    · rw [a] at hc; exact hpl c hc
    · exact hpl c (a.subset hc)
    · rw [a] at hc
      rcases List.mem_append.mp hc with hc | hc
      · exact hpl c (b.subset hc)
      · rw [List.mem_singleton.mp hc]; exact plain_opq
    · exact h.plain p (has_of a) c hc
  · intro p c hp
    obtain ⟨y, hy⟩ := Option.isSome_iff_exists.mp hp
    rcases (hcase hy).2 with ⟨a, _⟩ | ⟨a, _⟩ | ⟨d, a, b, e, _⟩ | ⟨_, _, a⟩
    · exact hpre p c (by rw [a]; exact List.prefix_refl _)
    · exact hpre p c a
    · rw [(List.append_inj' a rfl).1]
      by_cases hd : d = cs
      · have hnd := e hd
        rw [hd]
        rcases snoc_cases cs with h1 | ⟨p', c', h1⟩
        · rw [h1]; intro x hx; simp at hx
        · rw [h1, List.dropLast_concat] at hin
          rw [h1, visible_snoc]
          refine ⟨hin, fun hk => ?_⟩
          rw [hm p' c' h1 hk] at hnd; simp at hnd
      · obtain ⟨u, hu⟩ := b
        cases u with
        | nil => simp at hu; exact absurd hu hd
        | cons x u => exact hpre d x ⟨u, by rw [← hu]; simp⟩
    · exact h.inner p c (has_of a)
  · intro p c y hy hk
    rcases (hcase hy).2 with ⟨a, b⟩ | ⟨a, b, _⟩ | ⟨d, a, _, _, b⟩ | ⟨_, _, a⟩
    · rw [b]; exact hm p c a.symm hk
    · exfalso
      rcases snoc_cases cs with h1 | ⟨p', c', h1⟩
      · rw [h1] at a; simpa using List.prefix_nil.mp a
      · rw [h1, List.dropLast_concat] at hin
        rw [h1] at a b
        rcases prefix_snoc_snoc.mp a with a | a
        · exact b a
        · exact hin c (a.subset (by simp)) hk
    · rw [b]; decide
    · exact h.mark p c y a hk
  · intro q y hy hnil hq
    by_cases hp : q <+: cs
    · have hne : q ≠ cs := by
        intro e
        rw [e, hself] at hy
        injection hy with hy
        rw [← hy] at hnil
        rw [hnil] at hh; simp at hh
      obtain ⟨t, ht⟩ := hp
      cases t with
      | nil => simp at ht; exact absurd ht hne
      | cons c t =>
        refine ⟨c, ?_⟩
        have : S'.has (q ++ [c] ++ t) := by
          rw [List.append_assoc]
          simp only [List.singleton_append]
          rw [ht]
          exact has_of hself
        exact hi.prefix this
    · obtain ⟨hnr, hc⟩ := hcase hy
      rcases hc with ⟨a, _⟩ | ⟨a, _⟩ | ⟨_, _, _, _, b⟩ | ⟨_, b, a⟩
      · exact absurd (by rw [a]; exact List.prefix_refl _) hp
      · exact absurd a hp
      · rw [b] at hnil; simp at hnil
      · obtain ⟨c, hc⟩ := h.nil q y a hnil hq
        refine ⟨c, ?_⟩
        unfold FS.has
        rw [hg]
        refine stepped_stays (not_removes_child hp hq hnr) (fun e => hp ((List.prefix_append _ _).trans e)) (fun e => b ?_) hc
        rcases snoc_cases cs with h1 | ⟨p', c', h1⟩
        · rw [h1]; exact List.nil_prefix
        · have x1 : ¬ q ++ [c] = cs := fun e => hp (by rw [← e]; exact List.prefix_append _ _)
          rw [h1] at e x1 ⊢
          rcases prefix_snoc_snoc.mp e with a | a
          · exact absurd a.symm x1
          · exact a
  · intro q y hy hnil
    rcases (hcase hy).2 with ⟨_, b⟩ | ⟨_, _, b⟩ | ⟨d, a, _, _, b⟩ | ⟨_, _, a⟩
    · rw [b] at hnil; rw [hnil] at hh; simp at hh
    · rw [b] at hnil ⊢
      unfold dirOr at hnil ⊢
      cases e : S.get? q with
      | none => rfl
      | some z =>
        rw [e] at hnil
        simp only at hnil ⊢
        split
        · rfl
        · rename_i hz
          rw [if_neg hz] at hnil
          exact h.bare q z e hnil
    · rw [b] at hnil; simp at hnil
    · exact h.bare q y a hnil
  · by_cases hc : cs = []
    · rw [hc] at hself
      unfold FS.nonDir; rw [hself]; exact hr hc
    · unfold FS.nonDir
      cases hy : S'.get? [] with
      | none => rfl
      | some y =>
        rcases (hcase hy).2 with ⟨a, b⟩ | ⟨_, _, b⟩ | ⟨d, a, _⟩ | ⟨a, _⟩
        · exact absurd a.symm hc
        · simp only; rw [b]; exact dirOr_nonDir _
        · simp at a
        · exact absurd List.nil_prefix a

end Squash
