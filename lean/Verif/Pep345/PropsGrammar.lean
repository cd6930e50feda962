import Verif.Pep345.Props
import Verif.Pep440.PropsSpecGrammar
/-! Property C117: which texts `ParseVersionSpecifier` accepts, and what it reads from them. -/

namespace Pep345.Spec
open Go Pep440 Pep440.Spec

/-- the operators of PEP 345 as they are written; none means `==` -/
def written : List (Op × Str) :=
  [(.lt, "<".toList), (.gt, ">".toList), (.le, "<=".toList), (.ge, ">=".toList), (.eq, "==".toList), (.ne, "!=".toList),
   (.eq, "".toList)]

/-- one condition: an operator and a version (in PEP 440's grammar), white space around -/
def ClauseText (p : Str) (c : Clause) : Prop :=
  ∃ a o t b, p = a ++ (o ++ t) ++ b ∧ Space a ∧ Space b ∧ (c.op, o) ∈ written ∧ Reads t c.ver

/-- conditions separated by commas; surplus commas do not matter -/
inductive RequiresText : Str → List Clause → Prop where
  | none : RequiresText [] []
  | last {p c} : ',' ∉ p → ClauseText p c → RequiresText p [c]
  | comma {s cs} : RequiresText s cs → RequiresText (',' :: s) cs
  | more {p c s cs} : ',' ∉ p → ClauseText p c → RequiresText s cs → RequiresText (p ++ ',' :: s) (c :: cs)

end Pep345.Spec

namespace Pep345
open Go Pep440 Pep440.Spec Pep345.Spec

theorem splitOp_written (s : Str) : ∃ o, ((splitOp s).1, o) ∈ written ∧ s = o ++ (splitOp s).2 := by
  have pre : ∀ {o : Str}, hasPrefix s o = true → s = o ++ s.drop o.length := by
    intro o h
    obtain ⟨t, rfl⟩ := List.isPrefixOf_iff_prefix.mp h
    simp
  unfold splitOp
  split
  · rename_i h
    rw [Bool.and_eq_true] at h
    exact ⟨"<".toList, by simp [written], pre h.1⟩
  split
  · rename_i h
    rw [Bool.and_eq_true] at h
    exact ⟨">".toList, by simp [written], pre h.1⟩
  split
  · rename_i h; exact ⟨"<=".toList, by simp [written], pre h⟩
  split
  · rename_i h; exact ⟨">=".toList, by simp [written], pre h⟩
  split
  · rename_i h; exact ⟨"==".toList, by simp [written], pre h⟩
  split
  · rename_i h; exact ⟨"!=".toList, by simp [written], pre h⟩
  · exact ⟨"".toList, by simp [written], rfl⟩

/-- the provisos of C106, for a part of the text -/
structure Tame (s : Str) : Prop where
  longS : '\u017f' ∉ s
  kelvin : '\u212a' ∉ s
  small : ∀ a p b, s = a ++ p ++ b → ',' ∉ p → SmallLocal p

theorem Tame.infix {a s b : Str} (h : Tame (a ++ s ++ b)) : Tame s where
  longS := fun hm => h.longS (by simp [hm])
  kelvin := fun hm => h.kelvin (by simp [hm])
  small := fun x p y e => h.small (a ++ x) p (y ++ b) (by rw [e]; simp)

theorem clause_exact {p : Str} (ht : Tame p) (hc : ',' ∉ p) (c : Clause) :
    parseClause p = .ok c ↔ ClauseText p c ∧ Fits c.ver := by
  constructor
  · intro h
    obtain ⟨a, b, e, ha, hb⟩ := trimSpace_split p
    obtain ⟨o, ho, e2⟩ := splitOp_written (trimSpace p)
    unfold parseClause at h
    simp only at h
    cases hv : parseVersion (splitOp (trimSpace p)).2 with
    | error _ => rw [hv] at h; cases h
    | ok v =>
      rw [hv] at h
      injection h with h
      subst h
      have e3 : p = (a ++ o) ++ (splitOp (trimSpace p)).2 ++ b := by
        rw [List.append_assoc a, ← e2]; exact e
      have hs := ht.small (a ++ o) _ b e3 (fun hm => hc (by rw [e3]; simp [hm]))
      have htm := (e3 ▸ ht : Tame ((a ++ o) ++ (splitOp (trimSpace p)).2 ++ b)).infix
      obtain ⟨hr, hf⟩ := (C106_exact_partial _ v htm.longS htm.kelvin hs).mp hv
      exact ⟨⟨a, o, _, b, by rw [← e2]; exact e, ha, hb, ho, hr⟩, hf⟩
  · rintro ⟨⟨a, o, t, b, e, ha, hb, ho, hr⟩, hf⟩
    have e3 : p = (a ++ o) ++ t ++ b := by rw [e]; simp
    have hs := ht.small (a ++ o) t b e3 (fun hm => hc (by rw [e3]; simp [hm]))
    have htm := (e3 ▸ ht : Tame ((a ++ o) ++ t ++ b)).infix
    have hv := (C106_exact_partial t c.ver htm.longS htm.kelvin hs).mpr ⟨hr, hf⟩
    have := parseClause_ops hv (op := c.op) (o := o) ho
    unfold parseClause at this ⊢
    rw [e, trimSpace_around ha hb]
    exact this

theorem fields_comma (s : Str) : fieldsFunc (fun c => c = ',') (',' :: s) = fieldsFunc (fun c => c = ',') s := by
  rw [fieldsFunc.eq_def]; simp

theorem clauseText_ne {p : Str} {c : Clause} (ht : Tame p) (hc : ',' ∉ p) (h : ClauseText p c) (hf : Fits c.ver) :
    p ≠ [] := by
  intro e
  have := (clause_exact ht hc c).mpr ⟨h, hf⟩
  rw [e] at this
  have e0 : parseClause [] = .error () := by decide +kernel
  rw [e0] at this; cases this

theorem comma_split (s : Str) : ',' ∉ s ∨ ∃ p t, s = p ++ ',' :: t ∧ ',' ∉ p := by
  induction s with
  | nil => exact Or.inl (by simp)
  | cons c s ih =>
    by_cases hc : c = ','
    · subst hc; exact Or.inr ⟨[], s, rfl, by simp⟩
    · rcases ih with h | ⟨p, t, rfl, h⟩
      · exact Or.inl (by simp [h, Ne.symm hc])
      · exact Or.inr ⟨c :: p, t, rfl, by simp [h, Ne.symm hc]⟩

theorem none_comma {p : Str} (h : ',' ∉ p) : ∀ c ∈ p, (fun c => decide (c = ',')) c = false := by
  intro c hc
  simp only [decide_eq_false_iff_not]
  rintro rfl
  exact h hc

theorem accepts_reads {n : Nat} {s : Str} (hn : s.length ≤ n) (ht : Tame s) {cs : List Clause}
    (h : parseSpecifier s = .ok cs) : RequiresText s cs ∧ ∀ c ∈ cs, Fits c.ver := by
  induction n generalizing s cs with
  | zero =>
    have : s = [] := List.length_eq_zero_iff.mp (Nat.le_zero.mp hn)
    subst this
    simp only [parseSpecifier, fieldsFunc, parseClauses, Except.ok.injEq] at h
    subst h
    exact ⟨.none, by simp⟩
  | succ n ih =>
    rcases comma_split s with hc | ⟨p, t, rfl, hc⟩
    · by_cases hs : s = []
      · subst hs
        simp only [parseSpecifier, fieldsFunc, parseClauses, Except.ok.injEq] at h
        subst h
        exact ⟨.none, by simp⟩
      · unfold parseSpecifier at h
        rw [fieldsFunc_none hs (none_comma hc)] at h
        simp only [parseClauses] at h
        cases hp : parseClause s with
        | error e => rw [hp] at h; cases h
        | ok c =>
          rw [hp] at h
          simp only [Except.ok.injEq] at h
          subst h
          obtain ⟨h1, h2⟩ := (clause_exact ht hc c).mp hp
          exact ⟨.last hc h1, by simpa using h2⟩
    · have htt : Tame t := by
        have : Tame ((p ++ [',']) ++ t ++ []) := by simpa using ht
        exact this.infix
      have htp : Tame p := by
        have : Tame ([] ++ p ++ ',' :: t) := by simpa using ht
        exact this.infix
      have hlen : t.length ≤ n := by simp at hn; omega
      by_cases hp : p = []
      · subst hp
        unfold parseSpecifier at h
        rw [List.nil_append, fields_comma] at h
        obtain ⟨h1, h2⟩ := ih hlen htt h
        exact ⟨.comma h1, h2⟩
      · unfold parseSpecifier at h
        rw [fieldsFunc_cons hp (none_comma hc) (by decide)] at h
        simp only [parseClauses] at h
        cases hq : parseClause p with
        | error e => rw [hq] at h; cases h
        | ok c =>
          rw [hq] at h
          simp only at h
          cases hr : parseClauses (fieldsFunc (fun c => decide (c = ',')) t) with
          | error e => rw [hr] at h; cases h
          | ok cs' =>
            rw [hr] at h
            simp only [Except.ok.injEq] at h
            subst h
            obtain ⟨h1, h2⟩ := ih hlen htt hr
            obtain ⟨h3, h4⟩ := (clause_exact htp hc c).mp hq
            exact ⟨.more hc h3 h1, by simpa using ⟨h4, h2⟩⟩

theorem reads_accepts {s : Str} {cs : List Clause} (h : RequiresText s cs) (ht : Tame s) (hf : ∀ c ∈ cs, Fits c.ver) :
    parseSpecifier s = .ok cs := by
  induction h with
  | none => rfl
  | @last p c hc h =>
    have hf := hf c (by simp)
    unfold parseSpecifier
    rw [fieldsFunc_none (clauseText_ne ht hc h hf) (none_comma hc)]
    simp only [parseClauses, (clause_exact ht hc c).mpr ⟨h, hf⟩]
  | @comma s cs h ih =>
    have htt : Tame s := by
      have : Tame ([','] ++ s ++ []) := by simpa using ht
      exact this.infix
    unfold parseSpecifier
    rw [fields_comma]
    exact ih htt hf
  | @more p c s cs hc h hs ih =>
    have htt : Tame s := by
      have : Tame ((p ++ [',']) ++ s ++ []) := by simpa using ht
      exact this.infix
    have htp : Tame p := by
      have : Tame ([] ++ p ++ ',' :: s) := by simpa using ht
      exact this.infix
    have hfc := hf c (by simp)
    have ih := ih htt (fun d hd => hf d (by simp [hd]))
    unfold parseSpecifier at ih ⊢
    rw [fieldsFunc_cons (clauseText_ne htp hc h hfc) (none_comma hc) (by decide)]
    simp only [parseClauses, (clause_exact htp hc c).mpr ⟨h, hfc⟩, ih]

/-- C117 (partial): for a text without U+017F and U+212A, in which between two commas every digit run behind a `+` is
below 2^31, `ParseVersionSpecifier` accepts the text exactly if it is a list of conditions separated by commas, each an
operator of PEP 345 (or none, meaning `==`) and a version in PEP 440's grammar whose public numbers fit an `int`, and it
returns the conditions as written, in order.  Without the provisos it is false, see `C117_violated_wrap`. -/
theorem C117_exact_partial (s : Str) (cs : List Clause) (h1 : '\u017f' ∉ s) (h2 : '\u212a' ∉ s)
    (h3 : ∀ a p b, s = a ++ p ++ b → ',' ∉ p → SmallLocal p) :
    parseSpecifier s = .ok cs ↔ RequiresText s cs ∧ ∀ c ∈ cs, Fits c.ver :=
  ⟨accepts_reads (Nat.le_refl _) ⟨h1, h2, h3⟩, fun h => reads_accepts h.1 ⟨h1, h2, h3⟩ h.2⟩

/-- C117 (partial): a text says one thing only -/
theorem C117_unambiguous_partial (s : Str) (cs cs' : List Clause) (h1 : '\u017f' ∉ s) (h2 : '\u212a' ∉ s)
    (h3 : ∀ a p b, s = a ++ p ++ b → ',' ∉ p → SmallLocal p) (h : RequiresText s cs) (h' : RequiresText s cs')
    (hf : ∀ c ∈ cs, Fits c.ver) (hf' : ∀ c ∈ cs', Fits c.ver) : cs = cs' := by
  have a := (C117_exact_partial s cs h1 h2 h3).mpr ⟨h, hf⟩
  have b := (C117_exact_partial s cs' h1 h2 h3).mpr ⟨h', hf'⟩
  rw [a] at b
  injection b

/-- C117 (partial): `HaveRequiredPython` fails exactly for the texts outside the grammar -/
theorem C117_error_partial (v : Ver) (s : Str) (h1 : '\u017f' ∉ s) (h2 : '\u212a' ∉ s)
    (h3 : ∀ a p b, s = a ++ p ++ b → ',' ∉ p → SmallLocal p) :
    haveRequiredPython v s = some (.error ()) ↔ ¬ ∃ cs, RequiresText s cs ∧ ∀ c ∈ cs, Fits c.ver := by
  simp only [← C117_exact_partial s _ h1 h2 h3]
  unfold haveRequiredPython
  cases h : parseSpecifier s with
  | error e => simp
  | ok cs => simp

/-- the hypotheses are met -/
example : ∃ cs, RequiresText ">=2.6, <3,".toList cs ∧ ∀ c ∈ cs, Fits c.ver :=
  ⟨[⟨.ge, { sample with release := [2, 6] }⟩, ⟨.lt, { sample with release := [3] }⟩],
    (C117_exact_partial _ _ (by decide) (by decide)
      (fun a p b e _ => small_of_none (fun hm => by
        have : '+' ∈ ">=2.6, <3,".toList := by rw [e]; simp [hm]
        revert this; decide))).mp (by decide +kernel)⟩

/-- C117 is violated: the text `==1+2147483648` is read as a version that it does not say. -/
theorem C117_violated_wrap : ∃ v w, parseSpecifier "==1+2147483648".toList = .ok [⟨.eq, v⟩] ∧
    RequiresText "==1+2147483648".toList [⟨.eq, w⟩] ∧ Fits w ∧ v ≠ w := by
  obtain ⟨v, w, h1, h2, h3, h4⟩ := C106_violated_wrap
  refine ⟨v, w, ?_, .last (by decide) ⟨[], "==".toList, "1+2147483648".toList, [], by simp, ?_, ?_, by simp [written], h2⟩, h3, h4⟩
  · have := parseClause_ops h1 (op := .eq) (o := "==".toList) (by decide)
    unfold parseSpecifier
    have e : fieldsFunc (fun c => decide (c = ',')) "==1+2147483648".toList = ["==".toList ++ "1+2147483648".toList] := by
      decide +kernel
    rw [e]
    simp only [parseClauses, this]
  · intro c hc; cases hc
  · intro c hc; cases hc

end Pep345
