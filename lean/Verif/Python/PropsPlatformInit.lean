import Verif.Python.Platform
/-!
C86: validation of a platform.
-/
namespace Python
open Go

/-- `s` if it is not empty, otherwise `t` -/
def Spec.orElse (s t : Str) : Str := if s = [] then t else s

/-- an absolute path -/
def Spec.Absolute (s : Str) : Prop := ∃ x, s = '/' :: x

theorem isRooted_iff (s : Str) : isRooted s = true ↔ Spec.Absolute s := by
  unfold isRooted Spec.Absolute
  cases s with
  | nil => simp
  | cons c s => simp

/-- **C86**: `Init` accepts a platform iff it names at least one interpreter and all five installation directories are
absolute.  Then each missing interpreter is replaced by the other one and nothing else changes. -/
theorem C86_init (p q : Platform) : p.init = .ok q ↔
    (p.consoleShebang ≠ [] ∨ p.graphicalShebang ≠ []) ∧
    (Spec.Absolute p.scheme.pureLib ∧ Spec.Absolute p.scheme.platLib ∧ Spec.Absolute p.scheme.headers ∧ Spec.Absolute p.scheme.scripts ∧
      Spec.Absolute p.scheme.data) ∧
    q = { p with consoleShebang := Spec.orElse p.consoleShebang p.graphicalShebang,
                 graphicalShebang := Spec.orElse p.graphicalShebang p.consoleShebang } := by
  obtain ⟨cs, gs, sch, uid, gid, un, gn⟩ := p
  simp only [← isRooted_iff]
  unfold Platform.init Spec.orElse
  by_cases h1 : cs = []
  · subst h1
    by_cases h2 : gs = []
    · subst h2; simp
    · simp only [h2, and_false, if_false, if_true, ne_eq, not_true_eq_false, not_false_eq_true, or_true, true_and, List.all_cons,
        List.all_nil, Bool.and_true, Bool.and_eq_true]
      by_cases hs : isRooted sch.pureLib = true ∧ isRooted sch.platLib = true ∧ isRooted sch.headers = true ∧ isRooted sch.scripts = true ∧
          isRooted sch.data = true
      · rw [if_pos hs]
        simp only [hs, true_and, and_true, Except.ok.injEq]
        exact ⟨Eq.symm, Eq.symm⟩
      · rw [if_neg hs]
        exact ⟨fun h => (nomatch h), fun h => absurd h.1 hs⟩
  · by_cases h2 : gs = []
    · subst h2
      simp only [h1, false_and, if_false, if_true, ne_eq, not_false_eq_true, true_or, true_and, List.all_cons,
        List.all_nil, Bool.and_true, Bool.and_eq_true]
      by_cases hs : isRooted sch.pureLib = true ∧ isRooted sch.platLib = true ∧ isRooted sch.headers = true ∧ isRooted sch.scripts = true ∧
          isRooted sch.data = true
      · rw [if_pos hs]
        simp only [hs, true_and, and_true, Except.ok.injEq]
        exact ⟨Eq.symm, Eq.symm⟩
      · rw [if_neg hs]
        exact ⟨fun h => (nomatch h), fun h => absurd h.1 hs⟩
    · simp only [h1, h2, false_and, if_false, ne_eq, not_false_eq_true, true_or, true_and, List.all_cons,
        List.all_nil, Bool.and_true, Bool.and_eq_true]
      by_cases hs : isRooted sch.pureLib = true ∧ isRooted sch.platLib = true ∧ isRooted sch.headers = true ∧ isRooted sch.scripts = true ∧
          isRooted sch.data = true
      · rw [if_pos hs]
        simp only [hs, true_and, and_true, Except.ok.injEq]
        exact ⟨Eq.symm, Eq.symm⟩
      · rw [if_neg hs]
        exact ⟨fun h => (nomatch h), fun h => absurd h.1 hs⟩

/-- only a graphical interpreter: it is used for both; and a relative directory is refused -/
example : (Platform.mk [] "/usr/bin/pythonw".toList ⟨"/a".toList, "/b".toList, "/c".toList, "/d".toList, "/e".toList⟩ 0 0 [] []).init =
      .ok ⟨"/usr/bin/pythonw".toList, "/usr/bin/pythonw".toList, ⟨"/a".toList, "/b".toList, "/c".toList, "/d".toList, "/e".toList⟩, 0, 0, [], []⟩ ∧
    (Platform.mk [] "/usr/bin/pythonw".toList ⟨"/a".toList, "/b".toList, "/c".toList, "/d".toList, "e".toList⟩ 0 0 [] []).init = .error () :=
  ⟨rfl, rfl⟩

end Python
