import Verif.Python.PlatformFileLemmas
/-! Each field of the three structs is set by its own key only. -/
namespace Python
open Go

theorem congr_str {σ : Type} {π : σ → Str} {put : Str → σ → σ} (h : ∀ v s, π (put v s) = v) :
    ∀ v g, setStr put v = some g → ∀ s s', π s = π s' → π (g s) = π (g s') := by
  intro v g hg s s' e
  cases v <;> simp only [setStr, Option.some.injEq, reduceCtorEq] at hg <;> subst hg
  · exact e
  · rw [h, h]

theorem congr_int {σ : Type} {π : σ → Int} {put : Int → σ → σ} (h : ∀ v s, π (put v s) = v) :
    ∀ v g, setInt put v = some g → ∀ s s', π s = π s' → π (g s) = π (g s') := by
  intro v g hg s s' e
  cases v <;> simp only [setInt, Option.some.injEq, reduceCtorEq] at hg
  · subst hg; exact e
  · split at hg
    · injection hg with hg; subst hg; rw [h, h]
    · cases hg

theorem congr_bytes {σ : Type} {π : σ → List UInt8} {b64} {put : List UInt8 → σ → σ} (h : ∀ v s, π (put v s) = v) :
    ∀ v g, setBytes b64 put v = some g → ∀ s s', π s = π s' → π (g s) = π (g s') := by
  intro v g hg s s' _
  cases v <;> simp only [setBytes, Option.some.injEq, reduceCtorEq, Option.map_eq_some_iff] at hg
  · subst hg; rw [h, h]
  · obtain ⟨_, _, rfl⟩ := hg; rw [h, h]
  · obtain ⟨_, _, rfl⟩ := hg; rw [h, h]

theorem congr_tags {σ : Type} {π : σ → List Pep425.Tag} {put : List Pep425.Tag → σ → σ} (h : ∀ v s, π (put v s) = v) :
    ∀ v g, setTags put v = some g → ∀ s s', π s = π s' → π (g s) = π (g s') := by
  intro v g hg s s' _
  cases v <;> simp only [setTags, Option.some.injEq, reduceCtorEq, Option.map_eq_some_iff] at hg
  · subst hg; rw [h, h]
  · obtain ⟨_, _, rfl⟩ := hg; rw [h, h]

theorem congr_words {σ : Type} {π : σ → List Str} {put : List Str → σ → σ} (h : ∀ v s, π (put v s) = v) :
    ∀ v g, setWords put v = some g → ∀ s s', π s = π s' → π (g s) = π (g s') := by
  intro v g hg s s' _
  cases v <;> simp only [setWords, Option.some.injEq, reduceCtorEq, Option.map_eq_some_iff] at hg
  · subst hg; rw [h, h]
  · obtain ⟨_, _, rfl⟩ := hg; rw [h, h]

theorem congr_scheme : ∀ v g, setScheme v = some g → ∀ s s' : PlatFile, s.scheme = s'.scheme → (g s).scheme = (g s').scheme := by
  intro v g hg s s' e
  cases v <;> simp only [setScheme, Option.some.injEq, reduceCtorEq, Option.map_eq_some_iff] at hg
  · subst hg; exact e
  · obtain ⟨_, _, rfl⟩ := hg; simp only [e]

theorem congr_version : ∀ v g, setVersion v = some g → ∀ s s' : PlatFile, s.versionInfo = s'.versionInfo →
    (g s).versionInfo = (g s').versionInfo := by
  intro v g hg s s' e
  cases v <;> simp only [setVersion, Option.some.injEq, reduceCtorEq, Option.map_eq_some_iff] at hg
  · subst hg; rfl
  · obtain ⟨_, _, rfl⟩ := hg; simp only [e]

/-- closes `Slot` goals for the three tables -/
macro "slot" n:num : tactic => `(tactic| (
  refine ⟨by first | exact apart_scheme | exact apart_version | exact apart_platform _, ?_, ?_, ?_⟩
  · first | unfold schemeFields | unfold versionFields | unfold platformFields
    iterate $n (apply List.mem_cons_of_mem)
    exact List.mem_cons_self
  · first | unfold schemeFields | unfold versionFields | unfold platformFields
    repeat' (first | exact fun _ h => absurd h List.not_mem_nil | (refine List.forall_mem_cons.mpr ⟨?_, ?_⟩))
    all_goals
      intro hne
      first
      | (dsimp only; exact keeps_str (fun _ _ => rfl))
      | (dsimp only; exact keeps_int (fun _ _ => rfl))
      | (dsimp only; exact keeps_bytes (fun _ _ => rfl))
      | (dsimp only; exact keeps_tags (fun _ _ => rfl))
      | (dsimp only; exact keeps_words (fun _ _ => rfl))
      | (dsimp only; exact keeps_scheme (fun _ _ => rfl))
      | (dsimp only; exact keeps_version (fun _ _ => rfl))
      | exact absurd rfl hne
  · first
    | exact congr_str (fun _ _ => rfl)
    | exact congr_int (fun _ _ => rfl)
    | exact congr_bytes (fun _ _ => rfl)
    | exact congr_tags (fun _ _ => rfl)
    | exact congr_words (fun _ _ => rfl)
    | exact congr_scheme
    | exact congr_version))

theorem slot_purelib : Slot schemeFields "purelib".toList (setStr fun v s => { s with pureLib := v }) (·.pureLib) := by slot 0
theorem slot_platlib : Slot schemeFields "platlib".toList (setStr fun v s => { s with platLib := v }) (·.platLib) := by slot 1
theorem slot_headers : Slot schemeFields "headers".toList (setStr fun v s => { s with headers := v }) (·.headers) := by slot 2
theorem slot_scripts : Slot schemeFields "scripts".toList (setStr fun v s => { s with scripts := v }) (·.scripts) := by slot 3
theorem slot_data : Slot schemeFields "data".toList (setStr fun v s => { s with data := v }) (·.data) := by slot 4

theorem slot_major : Slot versionFields "major".toList (setInt fun v s => { s with major := v }) (·.major) := by slot 0
theorem slot_minor : Slot versionFields "minor".toList (setInt fun v s => { s with minor := v }) (·.minor) := by slot 1
theorem slot_micro : Slot versionFields "micro".toList (setInt fun v s => { s with micro := v }) (·.micro) := by slot 2
theorem slot_level : Slot versionFields "releaselevel".toList (setStr fun v s => { s with releaseLevel := v }) (·.releaseLevel) := by slot 3
theorem slot_serial : Slot versionFields "serial".toList (setInt fun v s => { s with serial := v }) (·.serial) := by slot 4

section
variable (b64 : Str → Option (List UInt8))
theorem slot_console : Slot (platformFields b64) "ConsoleShebang".toList (setStr fun v p => { p with consoleShebang := v })
    (·.consoleShebang) := by slot 0
theorem slot_graphical : Slot (platformFields b64) "GraphicalShebang".toList (setStr fun v p => { p with graphicalShebang := v })
    (·.graphicalShebang) := by slot 1
theorem slot_scheme : Slot (platformFields b64) "Scheme".toList setScheme (·.scheme) := by slot 2
theorem slot_uid : Slot (platformFields b64) "UID".toList (setInt fun v p => { p with uid := v }) (·.uid) := by slot 3
theorem slot_gid : Slot (platformFields b64) "GID".toList (setInt fun v p => { p with gid := v }) (·.gid) := by slot 4
theorem slot_uname : Slot (platformFields b64) "UName".toList (setStr fun v p => { p with uname := v }) (·.uname) := by slot 5
theorem slot_gname : Slot (platformFields b64) "GName".toList (setStr fun v p => { p with gname := v }) (·.gname) := by slot 6
theorem slot_version : Slot (platformFields b64) "VersionInfo".toList setVersion (·.versionInfo) := by slot 7
theorem slot_magic : Slot (platformFields b64) "MagicNumber".toList (setBytes b64 fun v p => { p with magicNumber := v })
    (·.magicNumber) := by slot 8
theorem slot_tags : Slot (platformFields b64) "Tags".toList (setTags fun v p => { p with tags := v }) (·.tags) := by slot 9
theorem slot_pycompile : Slot (platformFields b64) "PyCompile".toList (setWords fun v p => { p with pyCompile := v })
    (·.pyCompile) := by slot 10
end

end Python
