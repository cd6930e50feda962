import Verif.Squash.HardSpec
import Verif.Squash.PropsWhole
/-! Lemmas on extracting layers with hard links. -/
namespace Squash
open Go Spec

theorem applyAt_cases (p q : Path) :
    (∀ V nd, applyAt V p nd q = some (asDir (V q))) ∨
    ((∀ c, p.getLast? = some c → ¬ isMarker c) ∧ q = p ∧ ∀ V nd, applyAt V p nd q = some nd) ∨
    (∀ V nd, (isFile nd → applyAt V p nd q = none) ∧ (¬ isFile nd → applyAt V p nd q = V q)) ∨
    (∀ V nd, applyAt V p nd q = none) ∨ (∀ V nd, applyAt V p nd q = V q) := by
  by_cases h : q <+: p ∧ q ≠ p
  · exact .inl fun V nd => by unfold applyAt; rw [if_pos h]
  · have ord : (∀ c, p.getLast? = some c → ¬ isMarker c) → (∀ V nd, applyAt V p nd q =
        if q = p then some nd else if p <+: q ∧ isFile nd then none else V q) := by
      intro hm V nd
      unfold applyAt
      rw [if_neg h]
      cases hl : p.getLast? with
      | none => rfl
      | some c =>
        have h1 := hm c hl
        have h2 : c ≠ ".wh..wh..opq".toList := fun e => h1 (by rw [e]; decide)
        simp only [h1, h2, if_false]
    by_cases hm : ∀ c, p.getLast? = some c → ¬ isMarker c
    · have h1 := ord hm
      by_cases hq : q = p
      · exact .inr (.inl ⟨hm, hq, fun V nd => by rw [h1, if_pos hq]⟩)
      · by_cases hp : p <+: q
        · refine .inr (.inr (.inl fun V nd => ⟨fun hf => ?_, fun hf => ?_⟩))
          · rw [h1, if_neg hq, if_pos ⟨hp, hf⟩]
          · rw [h1, if_neg hq, if_neg (fun h => hf h.2)]
        · exact .inr (.inr (.inr (.inr fun V nd => by rw [h1, if_neg hq, if_neg (fun h => hp h.1)])))
    · obtain ⟨c, hl, hm⟩ : ∃ c, p.getLast? = some c ∧ isMarker c :=
        Classical.byContradiction fun hn => hm fun c h1 h2 => hn ⟨c, h1, h2⟩
      right; right; right
      by_cases ho : c = ".wh..wh..opq".toList
      · by_cases hp : p.dropLast <+: q
        · exact .inl fun V nd => by unfold applyAt; rw [if_neg h, hl]; simp only [ho, if_true, hp]
        · exact .inr fun V nd => by unfold applyAt; rw [if_neg h, hl]; simp only [ho, if_true, hp, if_false]
      · by_cases hp : p.dropLast ++ [c.drop 4] <+: q
        · exact .inl fun V nd => by unfold applyAt; rw [if_neg h, hl]; simp only [ho, hm, if_true, hp, if_false]
        · exact .inr fun V nd => by unfold applyAt; rw [if_neg h, hl]; simp only [ho, hm, if_true, hp, if_false]

instance (nd : Node) : Decidable (isHardNode nd) :=
  match e : nd.header with
  | none => .isFalse (by rintro ⟨h, h1, _⟩; rw [e] at h1; simp at h1)
  | some h => if hd : h.typeflag = '1' then .isTrue ⟨h, e, hd⟩
    else .isFalse (by rintro ⟨h', h1, h2⟩; rw [e] at h1; injection h1 with h1; rw [h1] at hd; exact hd h2)

/-- a view in which hard links are entries of their own, read through the links -/
def look (O : View) : View := fun q =>
  match O q with
  | some ⟨some h, b⟩ => if h.typeflag = '1' then O (targetOf h) else some ⟨some h, b⟩
  | x => x

theorem look_plain {O : View} {q : Path} (h : ∀ nd, O q = some nd → ¬ isHardNode nd) : look O q = O q := by
  unfold look
  split
  · rename_i hd b e
    rw [if_neg (fun ht => h _ e ⟨hd, rfl, ht⟩), e]
  · rfl

theorem look_hard {O : View} {q : Path} {nd : Node} {h : Header} (e : O q = some nd) (hh : nd.header = some h)
    (ht : h.typeflag = '1') : look O q = O (targetOf h) := by
  obtain ⟨hd, b⟩ := nd
  simp only at hh; subst hh
  unfold look
  rw [e]
  simp only [ht, if_true]

theorem hard_file {nd : Node} (h : isHardNode nd) : isFile nd := by
  obtain ⟨hd, h1, h2⟩ := h
  exact ⟨hd, h1, by rw [h2]; decide⟩

theorem asDir_not_hard (x : Option Node) : ¬ isHardNode (asDir x) := by
  intro h
  have := hard_file h
  rw [isFile_iff, asDir_eq, dirOr_nonDir] at this
  simp at this

/-- the file that is at a hard link's target when the link is extracted, and stays there -/
def KeptFile (O : View) (rest : List Entry) (t : Path) : Prop :=
  ∃ m, O t = some m ∧ isFile m ∧ ¬ isHardNode m ∧ ∀ x ∈ rest, Leaves x t m

/-- each hard link comes after an entry for its target, which is a file and is left alone from then on -/
def Spec.LinksKept (es : List Entry) : Prop :=
  ∀ A e B, es = A ++ e :: B → isHardLink e → ∃ A1 f A2, A = A1 ++ f :: A2 ∧ pathOf f = targetOf e.header ∧
    ¬ isMarkerEntry f ∧ f.header.typeflag ≠ '1' ∧ f.header.typeflag ≠ '5' ∧
    ∀ x ∈ A2 ++ e :: B, Leaves x (pathOf f) (nodeOf f)

theorem nodeOf_hard {e : Entry} : isHardNode (nodeOf e) ↔ e.header.typeflag = '1' := by
  constructor
  · rintro ⟨h, h1, h2⟩
    simp only [nodeOf, Option.some.injEq] at h1
    rw [← h1] at h2; exact h2
  · intro h; exact ⟨_, rfl, h⟩

theorem nodeOf_file {e : Entry} : isFile (nodeOf e) ↔ e.header.typeflag ≠ '5' := by
  rw [isFile_iff, nodeOf_nonDir]

theorem KeptFile.step {O : View} {x : Entry} {rest : List Entry} {t : Path} (h : KeptFile O (x :: rest) t) :
    KeptFile (apply O x) rest t ∧ apply O x t = O t := by
  obtain ⟨m, h1, h2, h3, h4⟩ := h
  have := apply_leaves (h4 x (by simp)) h1
  exact ⟨⟨m, this, h2, h3, fun y hy => h4 y (by simp [hy])⟩, by rw [this, h1]⟩

theorem asDir_look {O : View} {q : Path}
    (hb : ∀ nd h, O q = some nd → nd.header = some h → h.typeflag = '1' → ∃ m, O (targetOf h) = some m ∧ isFile m) :
    asDir (look O q) = asDir (O q) := by
  cases hq : O q with
  | none => rw [look_plain (by intro nd h; rw [hq] at h; cases h), hq]
  | some nd =>
    by_cases hh : isHardNode nd
    · obtain ⟨h, h1, h2⟩ := hh
      obtain ⟨m, h3, h4⟩ := hb nd h hq h1 h2
      rw [look_hard hq h1 h2, h3]
      unfold asDir
      simp only
      rw [if_pos h4, if_pos (hard_file ⟨h, h1, h2⟩)]
    · rw [look_plain (by intro nd' h; rw [hq] at h; injection h with h; rw [← h]; exact hh), hq]

/-- the effect of one step on the two views -/
theorem step_look {O E : View} {x : Entry} {rest : List Entry} {m : Node} (hE : ∀ q, E q = look O q)
    (hb : ∀ q nd h, O q = some nd → nd.header = some h → h.typeflag = '1' → KeptFile O (x :: rest) (targetOf h))
    (hm1 : isHardLink x → apply O x (targetOf x.header) = some m ∧ isFile m) (hm2 : ¬ isHardLink x → m = nodeOf x) :
    ∀ q, applyAt E (pathOf x) m q = look (apply O x) q := by
  intro q
  have hff : isFile m ↔ isFile (nodeOf x) := by
    by_cases hx : isHardLink x
    · exact ⟨fun _ => nodeOf_file.2 (by rw [hx.1]; decide), fun _ => (hm1 hx).2⟩
    · rw [hm2 hx]
  have same : apply O x q = O q → look (apply O x) q = look O q := by
    intro h
    cases hq : O q with
    | none => rw [look_plain (by intro nd h'; rw [h, hq] at h'; cases h'), look_plain (by intro nd h'; rw [hq] at h'; cases h'), h]
    | some nd =>
      by_cases hh : isHardNode nd
      · obtain ⟨hd, h1, h2⟩ := hh
        rw [look_hard hq h1 h2, look_hard (h.trans hq) h1 h2]
        exact (hb q nd hd hq h1 h2).step.2
      · rw [look_plain (by intro nd' h'; rw [h, hq] at h'; injection h' with h'; rw [← h']; exact hh),
          look_plain (by intro nd' h'; rw [hq] at h'; injection h' with h'; rw [← h']; exact hh), h]
  have gone : apply O x q = none → look (apply O x) q = none := by
    intro h; rw [look_plain (by intro nd h'; rw [h] at h'; cases h'), h]
  rcases applyAt_cases (pathOf x) q with h | ⟨hnm, rfl, h⟩ | h | h | h
  · have e : apply O x q = some (asDir (O q)) := h O _
    rw [h E m, look_plain (by intro nd h'; rw [e] at h'; injection h' with h'; rw [← h']; exact asDir_not_hard _), e, hE q,
      asDir_look (fun nd hd a b c => by
        obtain ⟨m, h1, h2, -⟩ := hb q nd hd a b c; exact ⟨m, h1, h2⟩)]
  · have e : apply O x (pathOf x) = some (nodeOf x) := h O _
    have hxm : ¬ isMarkerEntry x := by rintro ⟨c, h1, h2⟩; exact hnm c h1 h2
    rw [h E m]
    by_cases ht : x.header.typeflag = '1'
    · have hx : isHardLink x := ⟨ht, hxm⟩
      rw [look_hard (h := { x.header with name := clean x.header.name }) e rfl ht]
      exact (hm1 hx).1.symm
    · rw [look_plain (by intro nd h'; rw [e] at h'; injection h' with h'; rw [← h', nodeOf_hard]; exact ht), e,
        hm2 (fun hx => ht hx.1)]
  · by_cases hf : isFile m
    · rw [(h E m).1 hf, gone ((h O (nodeOf x)).1 (hff.1 hf))]
    · rw [(h E m).2 hf, hE, same ((h O (nodeOf x)).2 (fun h' => hf (hff.2 h')))]
  · rw [h E m, gone (h O _)]
  · rw [h E m, hE, same (h O _)]

theorem extract_look_aux : ∀ (rest : List Entry) (O E : View), (∀ q, E q = look O q) →
    (∀ q nd h, O q = some nd → nd.header = some h → h.typeflag = '1' → KeptFile O rest (targetOf h)) →
    (∀ A e B, rest = A ++ e :: B → isHardLink e → KeptFile O rest (targetOf e.header) ∨
      ∃ A1 f A2, A = A1 ++ f :: A2 ∧ pathOf f = targetOf e.header ∧ ¬ isMarkerEntry f ∧ f.header.typeflag ≠ '1' ∧
        f.header.typeflag ≠ '5' ∧ ∀ x ∈ A2 ++ e :: B, Leaves x (pathOf f) (nodeOf f)) →
    ∃ E', extract E rest = some E' ∧ ∀ q, E' q = look (rest.foldl apply O) q := by
  intro rest
  induction rest with
  | nil => intro O E h _ _; exact ⟨E, rfl, h⟩
  | cons x rest ih =>
    intro O E hE hb hc
    have hx : isHardLink x → KeptFile O (x :: rest) (targetOf x.header) := by
      intro hx
      rcases hc [] x rest rfl hx with h | ⟨A1, f, A2, h, -⟩
      · exact h
      · simp at h
    -- the next views
    obtain ⟨m, hm1, hm2, hm3⟩ : ∃ m, (isHardLink x → apply O x (targetOf x.header) = some m ∧ isFile m) ∧
        (¬ isHardLink x → m = nodeOf x) ∧ extractEntry E x = some (applyAt E (pathOf x) m) := by
      by_cases hh : isHardLink x
      · obtain ⟨m, h1, h2, h3, h4⟩ := hx hh
        refine ⟨m, fun _ => ⟨apply_leaves (h4 x (by simp)) h1, h2⟩, fun h => absurd hh h, ?_⟩
        unfold extractEntry
        rw [if_pos hh, hE, look_plain (by intro nd h'; rw [h1] at h'; injection h' with h'; rw [← h']; exact h3), h1]
        simp only [h2, if_true]
      · refine ⟨nodeOf x, fun h => absurd h hh, fun _ => rfl, ?_⟩
        unfold extractEntry
        rw [if_neg hh]; rfl
    have hE' := step_look hE hb hm1 hm2
    have := ih (apply O x) (applyAt E (pathOf x) m) hE' ?_ ?_
    · obtain ⟨E', h1, h2⟩ := this
      refine ⟨E', ?_, h2⟩
      rw [extract, hm3]; exact h1
    · intro q nd h h1 h2 h3
      have old : O q = some nd → KeptFile (apply O x) rest (targetOf h) := fun e => (hb q nd h e h2 h3).step.1
      rcases applyAt_cases (pathOf x) q with k | ⟨hnm, rfl, k⟩ | k | k | k
      · rw [show apply O x q = some (asDir (O q)) from k O _] at h1
        injection h1 with h1
        exact absurd ⟨h, h1 ▸ h2, h3⟩ (asDir_not_hard (O q))
      · rw [show apply O x (pathOf x) = some (nodeOf x) from k O _] at h1
        injection h1 with h1
        have hxm : ¬ isMarkerEntry x := by rintro ⟨c, a, b⟩; exact hnm c a b
        rw [← h1] at h2
        simp only [nodeOf, Option.some.injEq] at h2
        have ht : x.header.typeflag = '1' := by rw [← h2] at h3; exact h3
        have := (hx ⟨ht, hxm⟩).step.1
        rw [← h2]; exact this
      · by_cases hf : isFile (nodeOf x)
        · rw [show apply O x q = none from (k O _).1 hf] at h1; cases h1
        · rw [show apply O x q = O q from (k O _).2 hf] at h1; exact old h1
      · rw [show apply O x q = none from k O _] at h1; cases h1
      · rw [show apply O x q = O q from k O _] at h1; exact old h1
    · intro A e B hr he
      rcases hc (x :: A) e B (by rw [hr]; rfl) he with h | ⟨A1, f, A2, h1, h2, h3, h4, h5, h6⟩
      · exact .inl h.step.1
      · cases A1 with
        | nil =>
          simp only [List.nil_append, List.cons.injEq] at h1
          obtain ⟨rfl, rfl⟩ := h1
          left
          rw [← h2]
          refine ⟨nodeOf x, apply_self h3, nodeOf_file.2 h5, fun h => h4 (nodeOf_hard.1 h), ?_⟩
          rw [hr]; exact h6
        | cons y A1 =>
          simp only [List.cons_append, List.cons.injEq] at h1
          exact .inr ⟨A1, f, A2, h1.2, h2, h3, h4, h5, h6⟩

theorem extract_look {es : List Entry} {V : View} (hV : Extracted V)
    (h : LinksKept es) : ∃ E, extract V es = some E ∧ ∀ q, E q = look (es.foldl apply V) q := by
  refine extract_look_aux es V V (fun q => (look_plain (hV.nohard q)).symm) ?_ ?_
  · intro q nd hd h1 h2 h3; exact absurd ⟨hd, h2, h3⟩ (hV.nohard q nd h1)
  · intro A e B hr he; exact .inr (h A e B hr he)

end Squash
