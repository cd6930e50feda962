import Verif.Pep345.PropsGrammar
import Verif.Pep440.PropsSpecWide
/-! C117 whatever the size of the numbers in local labels. -/
namespace Pep345.Spec
open Go Pep440 Pep440.Spec

/-- the same operators, and the versions as `Keeps` says -/
inductive CondsKept : List Clause → List Clause → Prop where
  | nil : CondsKept [] []
  | cons {op : Op} {w v : Ver} {cs ds : List Clause} : Keeps w v → CondsKept cs ds → CondsKept (⟨op, w⟩ :: cs) (⟨op, v⟩ :: ds)

end Pep345.Spec

namespace Pep345
open Go Pep440 Pep440.Spec Pep345.Spec

/-- the provisos of C106 but for the size of numbers -/
structure Plain (s : Str) : Prop where
  longS : '\u017f' ∉ s
  kelvin : '\u212a' ∉ s

theorem Plain.infix {a s b : Str} (h : Plain (a ++ s ++ b)) : Plain s where
  longS := fun hm => h.longS (by simp [hm])
  kelvin := fun hm => h.kelvin (by simp [hm])

theorem clause_read {p : Str} (ht : Plain p) {c : Clause} (h : parseClause p = .ok c) :
    ∃ w, ClauseText p ⟨c.op, w⟩ ∧ Fits w ∧ Keeps w c.ver := by
  obtain ⟨a, b, e, ha, hb⟩ := trimSpace_split p
  obtain ⟨o, ho, e2⟩ := splitOp_written (trimSpace p)
  unfold parseClause at h
  simp only at h
  cases hv : parseVersion (splitOp (trimSpace p)).2 with
  | error _ => rw [hv] at h; cases h
  | ok v =>
    rw [hv] at h
    injection h with h
    subst h
    have e3 : p = (a ++ o) ++ (splitOp (trimSpace p)).2 ++ b := by
      rw [List.append_assoc a, ← e2]; exact e
    have htm := (e3 ▸ ht : Plain ((a ++ o) ++ (splitOp (trimSpace p)).2 ++ b)).infix
    obtain ⟨w, hr, hf, hk⟩ := (C106_wide_partial _ htm.longS htm.kelvin).1 v hv
    exact ⟨w, ⟨a, o, _, b, by rw [← e2]; exact e, ha, hb, ho, hr⟩, hf, hk⟩

theorem clause_write {p : Str} (ht : Plain p) {c : Clause} (h : ClauseText p c) (hf : Fits c.ver) :
    ∃ v, parseClause p = .ok ⟨c.op, v⟩ ∧ Keeps c.ver v := by
  obtain ⟨a, o, t, b, e, ha, hb, ho, hr⟩ := h
  have e3 : p = (a ++ o) ++ t ++ b := by rw [e]; simp
  have htm := (e3 ▸ ht : Plain ((a ++ o) ++ t ++ b)).infix
  obtain ⟨v, hv, hk⟩ := (C106_wide_partial t htm.longS htm.kelvin).2.1 c.ver hr hf
  refine ⟨v, ?_, hk⟩
  have := parseClause_ops hv (op := c.op) (o := o) ho
  unfold parseClause at this ⊢
  rw [e, trimSpace_around ha hb]
  exact this

theorem clauseText_ne_wide {p : Str} {c : Clause} (ht : Plain p) (h : ClauseText p c) (hf : Fits c.ver) : p ≠ [] := by
  intro e
  obtain ⟨v, this, -⟩ := clause_write ht h hf
  rw [e] at this
  have e0 : parseClause [] = .error () := by decide +kernel
  rw [e0] at this; cases this

theorem accepts_reads_wide {n : Nat} {s : Str} (hn : s.length ≤ n) (ht : Plain s) {cs : List Clause}
    (h : parseSpecifier s = .ok cs) : ∃ ws, RequiresText s ws ∧ (∀ c ∈ ws, Fits c.ver) ∧ CondsKept ws cs := by
  induction n generalizing s cs with
  | zero =>
    have : s = [] := List.length_eq_zero_iff.mp (Nat.le_zero.mp hn)
    subst this
    simp only [parseSpecifier, fieldsFunc, parseClauses, Except.ok.injEq] at h
    subst h
    exact ⟨[], .none, by simp, .nil⟩
  | succ n ih =>
    rcases comma_split s with hc | ⟨p, t, rfl, hc⟩
    · by_cases hs : s = []
      · subst hs
        simp only [parseSpecifier, fieldsFunc, parseClauses, Except.ok.injEq] at h
        subst h
        exact ⟨[], .none, by simp, .nil⟩
      · unfold parseSpecifier at h
        rw [fieldsFunc_none hs (none_comma hc)] at h
        simp only [parseClauses] at h
        cases hp : parseClause s with
        | error e => rw [hp] at h; cases h
        | ok c =>
          rw [hp] at h
          simp only [Except.ok.injEq] at h
          subst h
          obtain ⟨w, h1, h2, h3⟩ := clause_read ht hp
          exact ⟨[⟨c.op, w⟩], .last hc h1, by simpa using h2, .cons h3 .nil⟩
    · have htt : Plain t := by
        have : Plain ((p ++ [',']) ++ t ++ []) := by simpa using ht
        exact this.infix
      have htp : Plain p := by
        have : Plain ([] ++ p ++ ',' :: t) := by simpa using ht
        exact this.infix
      have hlen : t.length ≤ n := by simp at hn; omega
      by_cases hp : p = []
      · subst hp
        unfold parseSpecifier at h
        rw [List.nil_append, fields_comma] at h
        obtain ⟨ws, h1, h2, h3⟩ := ih hlen htt h
        exact ⟨ws, .comma h1, h2, h3⟩
      · unfold parseSpecifier at h
        rw [fieldsFunc_cons hp (none_comma hc) (by decide)] at h
        simp only [parseClauses] at h
        cases hq : parseClause p with
        | error e => rw [hq] at h; cases h
        | ok c =>
          rw [hq] at h
          simp only at h
          cases hr : parseClauses (fieldsFunc (fun c => decide (c = ',')) t) with
          | error e => rw [hr] at h; cases h
          | ok cs' =>
            rw [hr] at h
            simp only [Except.ok.injEq] at h
            subst h
            obtain ⟨ws, h1, h2, h3⟩ := ih hlen htt hr
            obtain ⟨w, h4, h5, h6⟩ := clause_read htp hq
            exact ⟨⟨c.op, w⟩ :: ws, .more hc h4 h1, by simpa using ⟨h5, h2⟩, .cons h6 h3⟩

theorem reads_accepts_wide {s : Str} {ws : List Clause} (h : RequiresText s ws) (ht : Plain s) (hf : ∀ c ∈ ws, Fits c.ver) :
    ∃ cs, parseSpecifier s = .ok cs ∧ CondsKept ws cs := by
  induction h with
  | none => exact ⟨[], rfl, .nil⟩
  | @last p c hc h =>
    have hf := hf c (by simp)
    obtain ⟨v, hv, hk⟩ := clause_write ht h hf
    refine ⟨[⟨c.op, v⟩], ?_, .cons hk .nil⟩
    unfold parseSpecifier
    rw [fieldsFunc_none (clauseText_ne_wide ht h hf) (none_comma hc)]
    simp only [parseClauses, hv]
  | @comma s cs h ih =>
    have htt : Plain s := by
      have : Plain ([','] ++ s ++ []) := by simpa using ht
      exact this.infix
    unfold parseSpecifier
    rw [fields_comma]
    exact ih htt hf
  | @more p c s cs hc h hs ih =>
    have htt : Plain s := by
      have : Plain ((p ++ [',']) ++ s ++ []) := by simpa using ht
      exact this.infix
    have htp : Plain p := by
      have : Plain ([] ++ p ++ ',' :: s) := by simpa using ht
      exact this.infix
    have hfc := hf c (by simp)
    obtain ⟨cs', ih, hk'⟩ := ih htt (fun d hd => hf d (by simp [hd]))
    obtain ⟨v, hv, hk⟩ := clause_write htp h hfc
    refine ⟨⟨c.op, v⟩ :: cs', ?_, .cons hk hk'⟩
    unfold parseSpecifier at ih ⊢
    rw [fieldsFunc_cons (clauseText_ne_wide htp h hfc) (none_comma hc) (by decide)]
    simp only [parseClauses, hv, ih]

/-- C117 (partial), whatever the size of numbers: take a text without U+017F and U+212A.  If `ParseVersionSpecifier`
accepts it, it is a list of conditions as in `RequiresText` whose numbers outside local labels fit an `int`, and the
conditions returned are, in order, those written, but for numbers in local labels, which come out as `Kept` says (the
number itself below 2^31).  And every such text is accepted. -/
theorem C117_wide_partial (s : Str) (h1 : '\u017f' ∉ s) (h2 : '\u212a' ∉ s) :
    (∀ cs, parseSpecifier s = .ok cs → ∃ ws, RequiresText s ws ∧ (∀ c ∈ ws, Fits c.ver) ∧ CondsKept ws cs) ∧
    (∀ ws, RequiresText s ws → (∀ c ∈ ws, Fits c.ver) → ∃ cs, parseSpecifier s = .ok cs ∧ CondsKept ws cs) :=
  ⟨fun _ => accepts_reads_wide (Nat.le_refl _) ⟨h1, h2⟩, fun _ h hf => reads_accepts_wide h ⟨h1, h2⟩ hf⟩

/-- C117 (partial), whatever the size of numbers: `HaveRequiredPython` fails exactly for the texts outside the grammar -/
theorem C117_error_wide_partial (v : Ver) (s : Str) (h1 : '\u017f' ∉ s) (h2 : '\u212a' ∉ s) :
    haveRequiredPython v s = some (.error ()) ↔ ¬ ∃ cs, RequiresText s cs ∧ ∀ c ∈ cs, Fits c.ver := by
  obtain ⟨a, b⟩ := C117_wide_partial s h1 h2
  unfold haveRequiredPython
  cases h : parseSpecifier s with
  | error e =>
    simp only [true_iff]
    rintro ⟨cs, h3, h4⟩
    obtain ⟨cs', h5, -⟩ := b cs h3 h4
    rw [h] at h5; cases h5
  | ok cs =>
    obtain ⟨ws, h3, h4, -⟩ := a cs h
    constructor
    · intro hx; cases hm : specMatch cs v <;> simp [hm] at hx
    · exact fun hn => absurd ⟨ws, h3, h4⟩ hn

/-- a text with a number beyond an `int` in a local label is accepted, hence one of the grammar -/
example : ∃ ws, RequiresText ">=2.6, !=3+9223372036854775808,".toList ws ∧ ∀ c ∈ ws, Fits c.ver := by
  obtain ⟨ws, a, b, -⟩ := (C117_wide_partial ">=2.6, !=3+9223372036854775808,".toList (by decide) (by decide)).1
    [⟨.ge, ⟨⟨0, [2, 6], none, none, none⟩, []⟩⟩, ⟨.ne, ⟨⟨0, [3], none, none, none⟩, [.str "9223372036854775808".toList]⟩⟩]
    (by decide +kernel)
  exact ⟨ws, a, b⟩

end Pep345
