import Verif.Pep440.PropsGrammar
/-! Which texts `ParseVersion` accepts and what it returns, whatever the size of the numbers in the local label (C106). -/
namespace Pep440.Spec
open Go

/-- `Kept g k`: for the segment `g` of a local label as it is written, the code keeps `k`.  A number from 2^31 to 2^63-1 is replaced
by the one below 2^31 in absolute value that differs from it by a multiple of 2^32; a larger number is kept as the text it is
written as. -/
inductive Kept : Seg → Seg → Prop where
  | text (t : Str) : Kept (.str t) (.str t)
  | small (n : Int) : n < 2 ^ 31 → Kept (.int n) (.int n)
  | wraps (n m k : Int) : n < 2 ^ 63 → n = m + k * 2 ^ 32 → -2 ^ 31 ≤ m → m < 2 ^ 31 → Kept (.int n) (.int m)
  | large (d : Str) (n : Int) : Number d n → 2 ^ 63 ≤ n → Kept (.int n) (.str d)

/-- segment by segment -/
inductive AllKept : List Seg → List Seg → Prop where
  | nil : AllKept [] []
  | cons {g k : Seg} {gs ks : List Seg} : Kept g k → AllKept gs ks → AllKept (g :: gs) (k :: ks)

end Pep440.Spec

namespace Pep440
open Go Spec

theorem parseSeg_kept {w : Str} (h : LowA w) : Kept (segOf w) (parseSeg (toLower w)) := by
  by_cases hs : w.all isDig = true → numOf w < 2 ^ 31
  · rw [parseSeg_low h hs]
    unfold segOf
    split
    · rename_i hd; exact .small _ (hs hd)
    · exact .text _
  · have hd : w.all isDig = true := by grind
    have hd' : Digits w := ⟨h.1, List.all_eq_true.1 hd⟩
    rw [toLower_low (fun c hc => (lowA_low c (h.2 c hc)).1)]
    unfold parseSeg segOf
    rw [if_pos hd, atoi_num hd']
    by_cases hn : numOf w < 2 ^ 63
    · rw [if_pos hn]
      have := wrap32_range (numOf w)
      refine .wraps _ _ ((numOf w - wrap32 (numOf w)) / 2 ^ 32) hn ?_ this.1 this.2
      have e : (numOf w - wrap32 (numOf w)) % 2 ^ 32 = 0 := by
        unfold wrap32
        have := Int.bmod_emod (x := numOf w) (m := 2 ^ 32)
        omega
      omega
    · rw [if_neg hn]
      exact .large _ _ (number_iff.2 ⟨hd', rfl⟩) (by omega)

namespace Pieces

/-- what the code keeps of the local label -/
def kept (p : Pieces) : List Seg := match p.loc with
  | none => []
  | some (g, ws) => (g :: ws.map (·.2)).map fun w => parseSeg (toLower w)

theorem kept_all {p : Pieces} (h : p.Ok) : AllKept p.val.loc p.kept := by
  unfold kept
  simp only [val]
  rcases hl : p.loc with _ | ⟨g, ws⟩
  · exact .nil
  · have ok := h.loc g ws hl
    have key : ∀ xs : List Str, (∀ x ∈ xs, LowA x) → AllKept (xs.map segOf) (xs.map fun w => parseSeg (toLower w)) := by
      intro xs hx
      induction xs with
      | nil => exact .nil
      | cons x xs ih => exact .cons (parseSeg_kept (hx x (by simp))) (ih fun y hy => hx y (by simp [hy]))
    refine key _ fun x hx => ?_
    rw [List.mem_cons, List.mem_map] at hx
    rcases hx with rfl | ⟨q, hq, rfl⟩
    · exact ok.1
    · exact (ok.2 q hq).2

theorem r_kept {p : Pieces} (h : p.Ok) :
    (fieldsFunc isSep (group p.caps .loc)).map (fun p => parseSeg (toLower p)) = p.kept := by
  rw [g_loc]
  simp only [kept, cLoc]
  rcases hl : p.loc with _ | ⟨g, ws⟩
  · rfl
  · have ok := h.loc g ws hl
    have al : ∀ {w : Str}, LowA w → Alnum w := fun hw => ⟨hw.1, fun c hc => lowA_ci c (hw.2 c hc)⟩
    have e : group [(Grp.loc, g ++ locTxt ws)] .loc = g ++ locTxt ws := by simp [group]
    simp only [e, fields_loc' (al ok.1) (fun q hq => ⟨(ok.2 q hq).1, al (ok.2 q hq).2⟩)]

open Classical in
theorem parse_pieces_kept {p : Pieces} (h : p.Ok) (hnf : p.NF) :
    (Fits p.val → parseVersion p.text = .ok { p.val with loc := p.kept }) ∧ (¬ Fits p.val → parseVersion p.text = .error ()) := by
  have hm : parseVersion p.text = fromCaps p.caps := by
    unfold parseVersion; rw [match_pieces h hnf]
  rw [hm]
  unfold fromCaps
  rw [r_epoch h]
  by_cases h1 : p.val.epoch < 2 ^ 63
  rotate_left
  · simp only [h1, if_false]
    exact ⟨fun hf => absurd hf.1 h1, fun _ => trivial⟩
  rw [if_pos h1]
  simp only [r_release h, r_pre h, r_kept h]
  by_cases h2 : ∀ n ∈ p.val.release, n < 2 ^ 63
  rotate_left
  · rw [if_neg h2]
    exact ⟨fun hf => absurd hf.2.1 h2, fun _ => rfl⟩
  rw [if_pos h2]
  simp only
  by_cases h3 : ∀ l n, p.val.pre = some (l, n) → n < 2 ^ 63
  rotate_left
  · rw [if_neg h3]
    exact ⟨fun hf => absurd hf.2.2.1 h3, fun _ => rfl⟩
  rw [if_pos h3]
  simp only
  have r4 := r_post h
  have r5 := r_dev h
  rcases e4 : parseLetterNumber (group p.caps .postL) (group p.caps .postN1 ++ group p.caps .postN2) postTable with _ | o4
  · rw [e4] at r4
    by_cases h4 : ∀ n, p.val.post = some n → n < 2 ^ 63
    · rw [if_pos h4] at r4; cases r4
    · exact ⟨fun hf => absurd hf.2.2.2.1 h4, fun _ => rfl⟩
  rw [e4] at r4
  by_cases h4 : ∀ n, p.val.post = some n → n < 2 ^ 63
  rotate_left
  · rw [if_neg h4] at r4; cases r4
  rw [if_pos h4] at r4
  injection r4 with r4
  rcases e5 : parseLetterNumber (group p.caps .devL) (group p.caps .devN) devTable with _ | o5
  · rw [e5] at r5
    by_cases h5 : ∀ n, p.val.dev = some n → n < 2 ^ 63
    · rw [if_pos h5] at r5; cases r5
    · exact ⟨fun hf => absurd hf.2.2.2.2 h5, fun _ => rfl⟩
  rw [e5] at r5
  by_cases h5 : ∀ n, p.val.dev = some n → n < 2 ^ 63
  rotate_left
  · rw [if_neg h5] at r5; cases r5
  rw [if_pos h5] at r5
  injection r5 with r5
  simp only [r4, r5]
  exact ⟨fun _ => trivial, fun hf => absurd ⟨h1, h2, h3, h4, h5⟩ hf⟩

end Pieces

/-- C106 (partial): for a text without U+017F (long s) and U+212A (Kelvin sign), however large the numbers in its local label.
`ParseVersion` accepts it exactly if it belongs to the grammar of PEP 440 and its public numbers fit an `int`; the version returned
is the one the text says but for the local label, of which each segment is kept as `Kept` says. -/
theorem C106_wide_partial (s : Str) (h1 : '\u017f' ∉ s) (h2 : '\u212a' ∉ s) :
    (∀ v, parseVersion s = .ok v → ∃ w, Reads s w ∧ Fits w ∧ AllKept w.loc v.loc ∧ v = { w with loc := v.loc }) ∧
    (∀ w, Reads s w → Fits w → ∃ v, parseVersion s = .ok v ∧ AllKept w.loc v.loc ∧ v = { w with loc := v.loc }) ∧
    (∀ w, Reads s w → ¬ Fits w → parseVersion s = .error ()) := by
  have back : ∀ w, Reads s w → ∃ q : Pieces, q.Ok ∧ q.NF ∧ q.val = w ∧ parseVersion s = parseVersion q.text := by
    rintro w ⟨a, body, b, t, rfl, ha, hb, hsame, hsays⟩
    obtain ⟨vv, p, rfl, hvv, ok, hg, rfl⟩ := says_iff.1 hsays
    obtain ⟨q, oq, nf, ht, hl, hv⟩ := Pieces.normal ok
    refine ⟨q, oq, nf, hv hg, ?_⟩
    rw [parse_blank (blank_iff.1 ha) (blank_iff.1 hb), ← parse_case body, hsame, parse_case, parse_vv ok hvv, ← ht]
  refine ⟨?_, ?_, ?_⟩
  · intro v h
    rw [← parse_case] at h
    have hlow : Low (s.map asciiLower) := by
      intro c hc
      rw [List.mem_map] at hc
      obtain ⟨d, hd, rfl⟩ := hc
      refine ⟨?_, ?_, ?_⟩
      · intro hu
        by_cases hd' : 65 ≤ d.toNat ∧ d.toNat ≤ 90
        · unfold asciiLower at hu
          rw [if_pos hd', ofNat_toNat32 hd'] at hu
          omega
        · rw [asciiLower_lower hd'] at hu; exact hd' hu
      · intro e; exact h1 (lower_eq e (by decide) ▸ hd)
      · intro e; exact h2 (lower_eq e (by decide) ▸ hd)
    have hm : ∃ m, reVersion.matchFull (s.map asciiLower) = some m := by
      unfold parseVersion at h
      split at h
      · cases h
      · rename_i m hm; exact ⟨m, hm⟩
    obtain ⟨m, hm⟩ := hm
    obtain ⟨a', w', e, ha, core, b', rfl, hcore, hb⟩ := match_lang hm
    have ha := star_chr_lang ha
    have hb := star_chr_lang hb
    rw [e] at hlow
    obtain ⟨vv, p, rfl, hvv, ok⟩ := core_lang hcore hlow.right.left
    obtain ⟨q, oq, nf, ht, hl, -⟩ := Pieces.normal ok
    rw [e, ← List.append_assoc, parse_blank ha hb, parse_vv ok hvv, ← ht] at h
    rw [List.map_eq_append_iff] at e
    obtain ⟨a, s2, rfl, ea, e⟩ := e
    rw [List.map_eq_append_iff] at e
    obtain ⟨body, b, rfl, ebody, eb⟩ := e
    have hbl : ∀ {x y : Str}, x.map asciiLower = y → (∀ c ∈ y, reSpace c = true) → Blank x := by
      intro x y hxy hy
      rw [blank_iff]
      intro c hc
      have h' := hy (asciiLower c) (hxy ▸ List.mem_map_of_mem hc)
      have hr : ¬ (97 ≤ (asciiLower c).toNat ∧ (asciiLower c).toNat ≤ 122) := by
        simp only [reSpace, Bool.or_eq_true, decide_eq_true_eq] at h'
        rcases h' with (((h' | h') | h') | h') | h' <;> rw [h'] <;> decide
      rw [← lower_eq rfl hr] at h'
      exact h'
    have same : SameUpToCase body (vv ++ q.text) := by
      unfold SameUpToCase
      rw [ht]
      have hlow' : Low (vv ++ p.text) := hlow.right.left
      rw [ebody]
      have : ∀ w : Str, Low w → w.map asciiLower = w := by
        intro w hw
        induction w with
        | nil => rfl
        | cons c w ih =>
          rw [List.map_cons, asciiLower_lower (hw c (by simp)).1, ih (fun d hd => hw d (by simp [hd]))]
      rw [this _ hlow']
    have hp := Pieces.parse_pieces_kept oq nf
    by_cases hf : Fits q.val
    · rw [hp.1 hf] at h
      injection h with h
      subst h
      exact ⟨q.val, ⟨a, body, b, vv ++ q.text, by simp, hbl ea ha, hbl eb hb, same,
        says_iff.2 ⟨vv, q, rfl, hvv, oq, nf.greedy, rfl⟩⟩, hf, Pieces.kept_all oq, rfl⟩
    · rw [hp.2 hf] at h; cases h
  · intro w hw hf
    obtain ⟨q, oq, nf, rfl, e⟩ := back w hw
    exact ⟨_, e.trans ((Pieces.parse_pieces_kept oq nf).1 hf), Pieces.kept_all oq, rfl⟩
  · intro w hw hf
    obtain ⟨q, oq, nf, rfl, e⟩ := back w hw
    exact e.trans ((Pieces.parse_pieces_kept oq nf).2 hf)

/-- 2^31 + 5, and a number that no `int` holds: the text belongs to the grammar, and this is what is kept -/
example : parseVersion "1.0+2147483653.9999999999999999999".toList =
      .ok { epoch := 0, release := [1, 0], pre := none, post := none, dev := none,
            loc := [.int (-2147483643), .str "9999999999999999999".toList] } ∧
    ∃ w, Reads "1.0+2147483653.9999999999999999999".toList w ∧ w.release = [1, 0] := by
  have e : parseVersion "1.0+2147483653.9999999999999999999".toList =
      .ok { epoch := 0, release := [1, 0], pre := none, post := none, dev := none,
            loc := [.int (-2147483643), .str "9999999999999999999".toList] } := by decide +kernel
  refine ⟨e, ?_⟩
  obtain ⟨w, hr, -, -, hv⟩ := (C106_wide_partial _ (by decide) (by decide)).1 _ e
  exact ⟨w, hr, (congrArg (fun v : Ver => v.release) hv).symm⟩

/-- a public number that does not fit is refused, whatever the local label says -/
example : parseVersion "9223372036854775808+1".toList = .error () := by decide +kernel

theorem segs_nonneg {w : Str} {gs : List Seg} (h : SegsText w gs) : ∀ n, Seg.int n ∈ gs → 0 ≤ n := by
  have one : ∀ {w : Str} {g : Seg} {n : Int}, SegText w g → Seg.int n = g → 0 ≤ n := by
    rintro w g n (⟨m, ⟨_, _, hm⟩, rfl⟩ | ⟨_, _, rfl⟩) e
    · injection e with e; omega
    · cases e
  induction h with
  | one h => intro n hn; rw [List.mem_singleton] at hn; exact one h hn
  | more h _ _ _ ih =>
    intro n hn
    rw [List.mem_cons] at hn
    rcases hn with hn | hn
    · exact one h hn
    · exact ih n hn

theorem Spec.AllKept.same {gs ks : List Seg} (h : AllKept gs ks) (h0 : ∀ n, Seg.int n ∈ gs → 0 ≤ n)
    (hs : ∀ n, Seg.int n ∈ gs → n < 2 ^ 31) : ks = gs := by
  induction h with
  | nil => rfl
  | @cons g k gs ks hk _ ih =>
    rw [ih (fun n hn => h0 n (by simp [hn])) (fun n hn => hs n (by simp [hn]))]
    congr 1
    cases hk with
    | text => rfl
    | small => rfl
    | wraps n m k hn e h1 h2 =>
      have := h0 n (by simp)
      have := hs n (by simp)
      congr 1
      omega
    | large d n hd hn =>
      have := hs n (by simp)
      omega

theorem Spec.AllKept.small {gs ks : List Seg} (h : AllKept gs ks) (e : ks = gs) : ∀ n, Seg.int n ∈ gs → n < 2 ^ 31 := by
  induction h with
  | nil => simp
  | @cons g k gs ks hk _ ih =>
    injection e with e1 e2
    intro n hn
    rw [List.mem_cons] at hn
    rcases hn with hn | hn
    · subst hn
      subst e1
      cases hk with
      | small _ h => exact h
      | wraps _ _ _ _ _ _ h => exact h
    · exact ih e2 n hn

/-- C106 (partial): take a text without U+017F and U+212A that says the version `w` with public numbers that fit an `int`.
`ParseVersion` returns `w` exactly if the numbers in the local label are below 2^31. -/
theorem C106_iff_partial (s : Str) (w : Ver) (h1 : '\u017f' ∉ s) (h2 : '\u212a' ∉ s) (hr : Reads s w) (hf : Fits w) :
    parseVersion s = .ok w ↔ ∀ n, Seg.int n ∈ w.loc → n < 2 ^ 31 := by
  obtain ⟨v, hv, hk, e⟩ := (C106_wide_partial s h1 h2).2.1 w hr hf
  constructor
  · intro h
    rw [hv] at h
    injection h with h
    exact hk.small (by rw [h])
  · intro h
    have h0 : ∀ n, Seg.int n ∈ w.loc → 0 ≤ n := by
      obtain ⟨_, _, _, _, _, _, _, _, _, _, _, _, _, _, _, _, _, _, _, _, _, _, hl, _⟩ := hr
      rcases hl with ⟨-, hl⟩ | ⟨t, -, hl⟩
      · rw [hl]; simp
      · exact segs_nonneg hl
    rw [hv, e, hk.same h0 h]

/-- the text of `C106_violated_wrap` has a number that is too large, and one less is read as written -/
example : ∃ w, Reads "1+2147483647".toList w ∧ parseVersion "1+2147483647".toList = .ok w ∧ w.loc = [.int 2147483647] := by
  have e : parseVersion "1+2147483647".toList =
      .ok { epoch := 0, release := [1], pre := none, post := none, dev := none, loc := [.int 2147483647] } := by decide +kernel
  refine ⟨_, ?_, e, rfl⟩
  refine ⟨[], _, [], "1+2147483647".toList, by simp, by simp [Blank], by simp [Blank], rfl,
    [], [], "1".toList, [], [], [], "+2147483647".toList, by decide, Or.inl rfl, Or.inl ⟨rfl, rfl⟩,
    .one ⟨by decide, by decide, by decide⟩, Or.inl ⟨rfl, rfl⟩, Or.inl ⟨rfl, rfl⟩, Or.inl ⟨rfl, rfl⟩,
    Or.inr ⟨"2147483647".toList, by decide, .one (Or.inl ⟨_, ⟨by decide, by decide, by decide +kernel⟩, rfl⟩)⟩, ?_⟩
  rintro ⟨d, n, -, h⟩; cases h

end Pep440
