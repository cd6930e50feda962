import Verif.Cli.Image
/-! C79: `image build` changes of the config what the flags say. -/
namespace Cli
open Go

/-- the strings of a slice -/
def elems (s : Option (List Str)) : List Str := s.getD []

theorem elems_append (a b : Option (List Str)) : elems (appendSlice a b) = elems a ++ elems b := by
  unfold appendSlice elems
  cases b with
  | none => simp
  | some l => cases l <;> simp

/-- **C79** The resulting config, for every base config and every flags: fields no flag is about keep their value; `Entrypoint`, `Cmd`
and `WorkingDir` are replaced when given, and otherwise kept; the environment is the base's, or nothing if it is to be cleared,
followed by the appended variables in order. -/
theorem C79_config {α : Type} (f : ConfigFlags) (c : ImgConfig α) :
    (buildConfig f c).others = c.others ∧
    (buildConfig f c).entrypoint = (match f.entrypoint with | some e => some e | none => c.entrypoint) ∧
    (buildConfig f c).cmd = (match f.cmd with | some e => some e | none => c.cmd) ∧
    (buildConfig f c).workingDir = (if f.workingDir = [] then c.workingDir else f.workingDir) ∧
    elems (buildConfig f c).env = (if f.envClear then [] else elems c.env) ++ elems f.envAppend := by
  unfold buildConfig
  by_cases hz : f.isZero = true
  · rw [if_neg (by rw [hz]; decide)]
    obtain ⟨cl, ap, en, cm, wd⟩ := f
    simp only [ConfigFlags.isZero, Bool.and_eq_true, Bool.not_eq_true', Option.isNone_iff_eq_none, List.isEmpty_iff] at hz
    obtain ⟨⟨⟨⟨rfl, rfl⟩, rfl⟩, rfl⟩, rfl⟩ := hz
    simp [elems]
  · rw [if_pos (by rw [Bool.eq_false_iff.mpr hz]; rfl)]
    obtain ⟨cl, ap, en, cm, wd⟩ := f
    obtain ⟨env, ent, cmd, wd', oth⟩ := c
    unfold ConfigFlags.applyTo
    refine ⟨?_, ?_, ?_, ?_, ?_⟩
    all_goals (cases cl <;> cases en <;> cases cm <;> by_cases hw : wd = [] <;> simp [hw, elems_append] <;> try simp [elems])

/-- **C79** With no flag the config is the same, nil slices included. -/
theorem C79_no_flags {α : Type} (c : ImgConfig α) : buildConfig (CmdLine.flags ⟨false, [], [], [], none⟩) c = c := rfl

/-- **C79** From the command line: what is not given is kept. -/
theorem C79_command_line {α : Type} (l : CmdLine) (c : ImgConfig α) (hw : l.workingDir ≠ some []) :
    let r := buildConfig l.flags c
    r.others = c.others ∧
    elems r.entrypoint = (if l.entrypoint = [] then elems c.entrypoint else l.entrypoint) ∧
    elems r.cmd = (if l.cmd = [] then elems c.cmd else l.cmd) ∧
    r.workingDir = l.workingDir.getD c.workingDir ∧
    elems r.env = (if l.clear then [] else elems c.env) ++ l.append := by
  obtain ⟨h1, h2, h3, h4, h5⟩ := C79_config l.flags c
  refine ⟨h1, ?_, ?_, ?_, ?_⟩
  · rw [h2]
    by_cases h : l.entrypoint = [] <;> simp [CmdLine.flags, nilIfEmpty, h, elems]
  · rw [h3]
    by_cases h : l.cmd = [] <;> simp [CmdLine.flags, nilIfEmpty, h, elems]
  · rw [h4]
    cases hd : l.workingDir with
    | none => simp [CmdLine.flags, hd]
    | some w =>
      have : w ≠ [] := by rintro rfl; exact hw hd
      simp [CmdLine.flags, hd, this]
  · rw [h5]
    by_cases h : l.append = [] <;> simp [CmdLine.flags, nilIfEmpty, h, elems]

example : buildConfig (CmdLine.flags ⟨true, ["A=1".toList, "B=2".toList], [], ["sh".toList], some "/srv".toList⟩)
      (⟨some ["PATH=/bin".toList], some ["/init".toList], some ["x".toList, "y".toList], "/".toList, "user"⟩ : ImgConfig String) =
    ⟨some ["A=1".toList, "B=2".toList], some ["/init".toList], some ["sh".toList], "/srv".toList, "user"⟩ := by rfl

end Cli
