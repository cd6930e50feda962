import Verif.Testutil.Quick

/-! C116: a static test case fails the test exactly if the function under test fails on it. -/

namespace Testutil

theorem equalLoop_spec {V W : Type} [DecidableEq W] {numIn : Nat} {f g : List V → Option W} {tcs : List (List V)}
    (h : ∀ tc ∈ tcs, tc.length = numIn → f tc ≠ none ∧ g tc ≠ none) (i : Nat) :
    ∃ rs, equalLoop numIn f g i tcs = some rs ∧
      ∀ r, r ∈ rs ↔ ∃ j tc, tcs[j]? = some tc ∧
        (tc.length ≠ numIn ∧ r = .size (i + j) ∨ tc.length = numIn ∧ f tc ≠ g tc ∧ r = .static (i + j) tc) := by
  induction tcs generalizing i with
  | nil => exact ⟨[], rfl, fun r => by simp⟩
  | cons t ts ih =>
    obtain ⟨rs, hrs, hm⟩ := ih (fun tc htc => h tc (List.mem_cons_of_mem _ htc)) (i + 1)
    -- the reports of the rest, seen from here
    have shift : ∀ r, r ∈ rs ↔ ∃ j tc, ts[j]? = some tc ∧
        (tc.length ≠ numIn ∧ r = .size (i + (j + 1)) ∨
          tc.length = numIn ∧ f tc ≠ g tc ∧ r = .static (i + (j + 1)) tc) := by
      intro r
      rw [hm r]
      simp only [Nat.add_assoc, Nat.add_comm 1]
    have split : ∀ (P : Nat → List V → Prop), (∃ j tc, (t :: ts)[j]? = some tc ∧ P j tc) ↔
        P 0 t ∨ ∃ j tc, ts[j]? = some tc ∧ P (j + 1) tc := by
      intro P
      constructor
      · rintro ⟨j, tc, hj, hP⟩
        cases j with
        | zero => simp only [List.getElem?_cons_zero, Option.some.injEq] at hj; subst hj; exact Or.inl hP
        | succ j => exact Or.inr ⟨j, tc, by simpa using hj, hP⟩
      · rintro (hP | ⟨j, tc, hj, hP⟩)
        · exact ⟨0, t, rfl, hP⟩
        · exact ⟨j + 1, tc, by simpa using hj, hP⟩
    rw [equalLoop]
    by_cases hl : t.length = numIn
    · rw [if_neg (by simp [hl])]
      obtain ⟨hf, hg⟩ := h t (List.mem_cons_self ..) hl
      obtain ⟨r1, hr1⟩ := Option.ne_none_iff_exists'.mp hf
      obtain ⟨r2, hr2⟩ := Option.ne_none_iff_exists'.mp hg
      simp only [hr1, hr2]
      by_cases he : r1 = r2
      · rw [if_pos he]
        refine ⟨rs, hrs, fun r => ?_⟩
        rw [split, shift]
        simp [hl, hr1, hr2, he]
      · rw [if_neg he, hrs]
        refine ⟨_, rfl, fun r => ?_⟩
        rw [split, List.mem_cons, shift]
        simp [hl, hr1, hr2, he]
    · rw [if_pos hl, hrs]
      refine ⟨_, rfl, fun r => ?_⟩
      rw [split, List.mem_cons, shift]
      simp [hl]

/-- C116, for `QuickCheckEqual`: functions that do not panic on the static cases do not make the checker panic.  What is
reported for the cases is, at its own position and with its own arguments, each case of the wrong size and each case on
which the two functions differ, and nothing else. -/
theorem C116_equal {V W : Type} [DecidableEq W] {numIn : Nat} {f g : List V → Option W} {random : Random}
    {tcs : List (List V)} (h : ∀ tc ∈ tcs, tc.length = numIn → f tc ≠ none ∧ g tc ≠ none)
    (hr : random ≠ .setupError) :
    ∃ rs, quickCheckEqual numIn f g random tcs = some rs ∧
      (Report.random ∈ rs ↔ random = .counterexample) ∧
      (∀ i, Report.size i ∈ rs ↔ ∃ tc, tcs[i]? = some tc ∧ tc.length ≠ numIn) ∧
      (∀ i args, Report.static i args ∈ rs ↔ tcs[i]? = some args ∧ args.length = numIn ∧ f args ≠ g args) := by
  obtain ⟨rs, hrs, hm⟩ := equalLoop_spec h 0
  cases random with
  | setupError => exact absurd rfl hr
  | ok =>
    refine ⟨rs, hrs, ?_, fun i => ?_, fun i args => ?_⟩
    · rw [hm]; simp
    · rw [hm]
      simp only [reduceCtorEq, and_false, Nat.zero_add, Report.size.injEq, or_false]
      constructor
      · rintro ⟨j, tc, h1, h2, rfl⟩; exact ⟨tc, h1, h2⟩
      · rintro ⟨tc, h1, h2⟩; exact ⟨i, tc, h1, h2, rfl⟩
    · rw [hm]
      simp only [reduceCtorEq, and_false, false_or, Nat.zero_add, Report.static.injEq]
      constructor
      · rintro ⟨j, tc, h1, h2, h3, rfl, rfl⟩; exact ⟨h1, h2, h3⟩
      · rintro ⟨h1, h2, h3⟩; exact ⟨i, args, h1, h2, h3, rfl, rfl⟩
  | counterexample =>
    refine ⟨Report.random :: rs, by simp [quickCheckEqual, hrs], by simp, fun i => ?_, fun i args => ?_⟩
    · rw [List.mem_cons, hm]
      simp only [reduceCtorEq, and_false, false_or, Nat.zero_add, Report.size.injEq, or_false]
      constructor
      · rintro ⟨j, tc, h1, h2, rfl⟩; exact ⟨tc, h1, h2⟩
      · rintro ⟨tc, h1, h2⟩; exact ⟨i, tc, h1, h2, rfl⟩
    · rw [List.mem_cons, hm]
      simp only [reduceCtorEq, and_false, false_or, Nat.zero_add, Report.static.injEq]
      constructor
      · rintro ⟨j, tc, h1, h2, h3, rfl, rfl⟩; exact ⟨h1, h2, h3⟩
      · rintro ⟨h1, h2, h3⟩; exact ⟨i, args, h1, h2, h3, rfl, rfl⟩

/-- C116, for `QuickCheckEqual`: the test passes exactly if the random part found nothing and each static case has the
right size and the same result from both functions. -/
theorem C116_equal_passes {V W : Type} [DecidableEq W] {numIn : Nat} {f g : List V → Option W} {random : Random}
    {tcs : List (List V)} (h : ∀ tc ∈ tcs, tc.length = numIn → f tc ≠ none ∧ g tc ≠ none) :
    quickCheckEqual numIn f g random tcs = some [] ↔
      random = .ok ∧ ∀ tc ∈ tcs, tc.length = numIn ∧ f tc = g tc := by
  by_cases hr : random = .setupError
  · subst hr; simp [quickCheckEqual]
  obtain ⟨rs, hrs, h1, h2, h3⟩ := C116_equal (random := random) h hr
  rw [hrs, Option.some.injEq]
  constructor
  · rintro rfl
    refine ⟨?_, fun tc htc => ?_⟩
    · cases random with
      | ok => rfl
      | setupError => exact absurd rfl hr
      | counterexample => simp at h1
    · obtain ⟨i, hi⟩ := List.getElem?_of_mem htc
      have hl : tc.length = numIn := by
        by_cases hl : tc.length = numIn
        · exact hl
        · exact absurd ((h2 i).mpr ⟨tc, hi, hl⟩) (by simp)
      refine ⟨hl, ?_⟩
      cases hc : f tc with
      | none => exact absurd hc (h tc htc hl).1
      | some w =>
        by_cases he : f tc = g tc
        · exact hc ▸ he
        · exact absurd ((h3 i tc).mpr ⟨hi, hl, he⟩) (by simp)
  · rintro ⟨ho, hall⟩
    subst ho
    apply List.eq_nil_iff_forall_not_mem.mpr
    intro r hm
    cases r with
    | random => simp at h1; exact h1 hm
    | size i =>
      obtain ⟨tc, hi, hl⟩ := (h2 i).mp hm
      exact hl (hall tc (List.mem_of_getElem? hi)).1
    | static i args =>
      obtain ⟨hi, hl, hd⟩ := (h3 i args).mp hm
      exact hd (hall args (List.mem_of_getElem? hi)).2

/-- the hypotheses are met; the second case is reported -/
example : quickCheckEqual 2 (fun a : List Nat => some a.sum) (fun a => some (a.headD 0 * 2)) .ok [[1, 1], [1, 2], [3]] =
    some [.static 1 [1, 2], .size 2] := by decide +kernel

/-! ### `QuickCheck` -/

/-- a static case at position `i` that `QuickCheck` calls the function with, as the code stands: without arguments, or
all arguments equal and at least `i + 1` of them -/
def Faithful {V : Type} (i : Nat) (tc : List V) : Prop := tc = [] ∨ i < tc.length ∧ ∀ a ∈ tc, ∀ b ∈ tc, a = b

theorem checkArgs_faithful {V : Type} {i : Nat} {tc : List V} (h : Faithful i tc) : checkArgs i tc = some tc := by
  unfold checkArgs
  rcases h with rfl | ⟨hi, he⟩
  · simp
  · have hne : tc ≠ [] := by intro h; subst h; simp at hi
    rw [if_neg hne, List.getElem?_eq_getElem hi]
    simp only [Option.map_some, Option.some.injEq]
    exact (List.eq_replicate_iff.mpr ⟨rfl, fun b hb => he b hb _ (List.getElem_mem hi)⟩).symm

theorem checkLoop_equal {V : Type} {numIn : Nat} {fn : List V → Option Bool} {tcs : List (List V)} (i : Nat)
    (hf : ∀ j tc, tcs[j]? = some tc → tc.length = numIn → Faithful (i + j) tc) :
    checkLoop numIn fn i tcs = equalLoop numIn fn (fun _ => some true) i tcs := by
  induction tcs generalizing i with
  | nil => rfl
  | cons t ts ih =>
    have ih := ih (i + 1) (fun j tc hj hl => by
      have := hf (j + 1) tc (by simpa using hj) hl
      rwa [Nat.add_assoc, Nat.add_comm 1])
    rw [checkLoop, equalLoop]
    by_cases hl : t.length = numIn
    · rw [if_neg (by simp [hl]), if_neg (by simp [hl]), checkArgs_faithful (i := i) (hf 0 t rfl hl)]
      simp only
      rcases hc : fn t with _ | b
      · rfl
      · cases b <;> simp [ih]
    · rw [if_pos hl, if_pos hl, ih]

/-- C116 (partial): for `QuickCheck`, only if the arguments of each case (of the right size) are all equal and there are
more of them than there are cases before it.  Then each case of the wrong size and each case on which the function is
false is reported, at its own position and with its own arguments, and nothing else.  Not so otherwise: see
`C116_violated_missed` and `C116_violated_panic`. -/
theorem C116_check_partial {V : Type} {numIn : Nat} {fn : List V → Option Bool} {random : Random}
    {tcs : List (List V)} (h : ∀ tc ∈ tcs, tc.length = numIn → fn tc ≠ none) (hr : random ≠ .setupError)
    (hf : ∀ i tc, tcs[i]? = some tc → tc.length = numIn → Faithful i tc) :
    ∃ rs, quickCheck numIn fn random tcs = some rs ∧
      (Report.random ∈ rs ↔ random = .counterexample) ∧
      (∀ i, Report.size i ∈ rs ↔ ∃ tc, tcs[i]? = some tc ∧ tc.length ≠ numIn) ∧
      (∀ i args, Report.static i args ∈ rs ↔ tcs[i]? = some args ∧ args.length = numIn ∧ fn args = some false) := by
  have e : quickCheck numIn fn random tcs = quickCheckEqual numIn fn (fun _ => some true) random tcs := by
    unfold quickCheck quickCheckEqual
    rw [checkLoop_equal 0 (fun j tc hj hl => by rw [Nat.zero_add]; exact hf j tc hj hl)]
  obtain ⟨rs, hrs, h1, h2, h3⟩ := C116_equal (g := fun _ => some true) (random := random)
    (fun tc htc hl => ⟨h tc htc hl, by simp⟩) hr
  refine ⟨rs, e.trans hrs, h1, h2, fun i args => (h3 i args).trans ?_⟩
  constructor
  · rintro ⟨ha, hb, hc⟩
    refine ⟨ha, hb, ?_⟩
    rcases hd : fn args with _ | b
    · exact absurd hd (h args (List.mem_of_getElem? ha) hb)
    · cases b with
      | true => exact absurd hd hc
      | false => rfl
  · rintro ⟨ha, hb, hc⟩
    exact ⟨ha, hb, by simp [hc]⟩

/-- the hypotheses are met by one case of one argument, the smallest use -/
example : Faithful 0 [5] := Or.inr ⟨by decide, by simp⟩
example : quickCheck 1 (fun a : List Nat => some (a == [4])) .ok [[5]] = some [.static 0 [5]] := by decide +kernel

/-- C116 is violated: the function is false on the only static case, and nothing is reported. -/
theorem C116_violated_missed : ∃ (fn : List Nat → Option Bool) (tc : List Nat), tc.length = 2 ∧ fn tc = some false ∧
    (∀ a, fn a ≠ none) ∧ quickCheck 2 fn .ok [tc] = some [] :=
  ⟨fun a => some (a == [1, 1]), [1, 2], rfl, by decide, by simp, by decide +kernel⟩

/-- C116 is violated: a function of one argument that is true everywhere, given two static cases, panics the checker. -/
theorem C116_violated_panic {V : Type} (a b : V) : quickCheck 1 (fun _ => some true) .ok [[a], [b]] = none := rfl

end Testutil
