import Verif.Python.Inspect
import Verif.Go.PathDir
/-! C77, C78: lookup of executables in an image, and the interpreters for shebangs. -/
namespace Python
open Go

namespace Spec
/-- a file that is not a directory and that someone may execute, at this absolute path of the image -/
def Executable (img : Image) (p : Str) : Prop :=
  ∃ name mode, p = '/' :: name ∧ img.stat name = some (false, mode) ∧
    (mode.getLsbD 0 = true ∨ mode.getLsbD 3 = true ∨ mode.getLsbD 6 = true)

/-- the image's working directory as an absolute path -/
def workDir (img : Image) : Str := if isRooted img.workingDir then img.workingDir else '/' :: img.workingDir

/-- where `name` is, in directory `dir` -/
def located (img : Image) (dir name : Str) : Str :=
  if isRooted (pathJoin [dir, name]) then pathJoin [dir, name] else pathJoin [workDir img, pathJoin [dir, name]]

/-- the directories of `PATH`: the first variable of that name, split at the colons -/
def PathDirs (img : Image) (dirs : List Str) : Prop :=
  (∃ before v after, img.env = before ++ ("PATH=".toList ++ v) :: after ∧ (∀ e ∈ before, ¬ "PATH=".toList <+: e) ∧
    ((v = [] ∧ dirs = []) ∨ (v ≠ [] ∧ dirs ≠ [] ∧ (∀ d ∈ dirs, ':' ∉ d) ∧ v = join [':'] dirs))) ∨
  ((∀ e ∈ img.env, ¬ "PATH=".toList <+: e) ∧ dirs = [])
end Spec

theorem hasPrefix_iff {s p : Str} : hasPrefix s p = true ↔ p <+: s := by
  unfold hasPrefix; exact List.isPrefixOf_iff_prefix

theorem isRooted_prefix (s : Str) : hasPrefix s ['/'] = isRooted s := by
  cases s with
  | nil => rfl
  | cons c s =>
    by_cases h : c = '/'
    · simp [hasPrefix, isRooted, List.isPrefixOf, h]
    · simp [hasPrefix, isRooted, List.isPrefixOf, h, Ne.symm h]

theorem wd_spec (img : Image) : img.wd = Spec.workDir img := by
  unfold Image.wd Spec.workDir
  by_cases h : img.workingDir = []
  · rw [if_pos h, h]; rfl
  · rw [if_neg h, isRooted_prefix]

theorem exec_bits (mode : BitVec 32) :
    mode &&& 0o111#32 = 0#32 ↔ ¬ (mode.getLsbD 0 = true ∨ mode.getLsbD 3 = true ∨ mode.getLsbD 6 = true) := by
  constructor
  · intro h hc
    have g : ∀ i, (mode &&& 0o111#32).getLsbD i = false := by intro i; rw [h]; simp
    rcases hc with hc | hc | hc
    · have := g 0; rw [BitVec.getLsbD_and, hc] at this; exact absurd this (by decide)
    · have := g 3; rw [BitVec.getLsbD_and, hc] at this; exact absurd this (by decide)
    · have := g 6; rw [BitVec.getLsbD_and, hc] at this; exact absurd this (by decide)
  · intro h
    rw [not_or, not_or] at h
    apply BitVec.eq_of_getLsbD_eq
    intro i hi
    rw [BitVec.getLsbD_and]
    have : ∀ j, j < 32 → (0o111#32).getLsbD j = true → j = 0 ∨ j = 3 ∨ j = 6 := by decide
    cases hb : (0o111#32).getLsbD i with
    | false => simp
    | true =>
      rcases this i hi hb with rfl | rfl | rfl
      · rw [Bool.eq_false_iff.mpr h.1]; rfl
      · rw [Bool.eq_false_iff.mpr h.2.1]; rfl
      · rw [Bool.eq_false_iff.mpr h.2.2]; rfl

theorem executable_iff (img : Image) (p : Str) : img.executable p = true ↔ Spec.Executable img p := by
  unfold Image.executable Image.statAbs Spec.Executable
  cases p with
  | nil =>
    simp only [isRooted, List.head?_nil, reduceCtorEq, decide_false, Bool.false_eq_true, if_false, false_iff]
    rintro ⟨_, _, h, _⟩; cases h
  | cons c name =>
    by_cases hc : c = '/'
    · subst hc
      rw [show isRooted ('/' :: name) = true from rfl, if_pos rfl, List.drop_succ_cons, List.drop_zero]
      cases hs : img.stat name with
      | none =>
        simp only [Bool.false_eq_true, false_iff]
        rintro ⟨n, m, h, h2, _⟩
        cases h
        rw [hs] at h2; cases h2
      | some x =>
        obtain ⟨dir, mode⟩ := x
        simp only [Bool.not_eq_true', Bool.or_eq_false_iff, decide_eq_false_iff_not]
        constructor
        · rintro ⟨rfl, h⟩
          exact ⟨name, mode, rfl, hs, Classical.byContradiction fun hn => h ((exec_bits mode).mpr hn)⟩
        · rintro ⟨n, m, h, h2, h3⟩
          cases h
          rw [hs] at h2; cases h2
          exact ⟨rfl, fun h => (exec_bits mode).mp h h3⟩
    · have : isRooted (c :: name) = false := by simp [isRooted, hc]
      rw [this, if_neg (by decide)]
      simp only [Bool.false_eq_true, false_iff]
      rintro ⟨n, m, h, _⟩
      exact hc (List.cons.inj h).1

theorem path_spec (img : Image) : Spec.PathDirs img img.path := by
  have key : ∀ env : List Str,
      (lookupEnv env "PATH".toList = none ∧ ∀ e ∈ env, ¬ "PATH=".toList <+: e) ∨
      ∃ before v after, env = before ++ ("PATH=".toList ++ v) :: after ∧ (∀ e ∈ before, ¬ "PATH=".toList <+: e) ∧
        lookupEnv env "PATH".toList = some v := by
    intro env
    induction env with
    | nil => exact Or.inl ⟨rfl, by simp⟩
    | cons kv env ih =>
      by_cases h : hasPrefix kv ("PATH".toList ++ ['=']) = true
      · obtain ⟨v, rfl⟩ := hasPrefix_iff.mp h
        refine Or.inr ⟨[], v, env, rfl, by simp, ?_⟩
        rw [lookupEnv, if_pos h]
        unfold trimPrefix
        rw [if_pos h]
        rfl
      · have hn : ¬ "PATH=".toList <+: kv := fun hp => h (hasPrefix_iff.mpr hp)
        rcases ih with ⟨h1, h2⟩ | ⟨b, v, a, h1, h2, h3⟩
        · refine Or.inl ⟨by rw [lookupEnv, if_neg h]; exact h1, ?_⟩
          intro e he
          rcases List.mem_cons.mp he with rfl | he
          · exact hn
          · exact h2 e he
        · refine Or.inr ⟨kv :: b, v, a, by rw [h1]; rfl, ?_, by rw [lookupEnv, if_neg h]; exact h3⟩
          intro e he
          rcases List.mem_cons.mp he with rfl | he
          · exact hn
          · exact h2 e he
  unfold Image.path
  rcases key img.env with ⟨h1, h2⟩ | ⟨b, v, a, h1, h2, h3⟩
  · rw [h1]; exact Or.inr ⟨h2, rfl⟩
  · rw [h3]
    refine Or.inl ⟨b, v, a, h1, h2, ?_⟩
    simp only
    unfold splitList
    by_cases hv : v = []
    · exact Or.inl ⟨hv, if_pos hv⟩
    · rw [if_neg hv]
      exact Or.inr ⟨hv, split_ne_nil ':' v, fun d hd => split_no_sep hd, (join_split ':' v).symm⟩

/-- **C77** For a name without slash: the result is the place of the name in the first directory of `PATH` in which it is an
executable file, and there is an error exactly when there is no such directory. -/
theorem C77_path_order (img : Image) {name : Str} (hn : '/' ∉ name) :
    ∃ dirs, Spec.PathDirs img dirs ∧
      (∀ p, img.lookPath name = some p ↔ ∃ before d after, dirs = before ++ d :: after ∧ p = Spec.located img d name ∧
        Spec.Executable img p ∧ ∀ d' ∈ before, ¬ Spec.Executable img (Spec.located img d' name)) ∧
      (img.lookPath name = none ↔ ∀ d ∈ dirs, ¬ Spec.Executable img (Spec.located img d name)) := by
  refine ⟨img.path, path_spec img, ?_⟩
  have hl : img.lookPath name = lookLoop img name img.path := by
    unfold Image.lookPath
    rw [if_neg (by simpa using hn)]
  rw [hl]
  generalize img.path = dirs
  induction dirs with
  | nil =>
    refine ⟨fun p => ⟨fun h => (nomatch h), ?_⟩, by simp [lookLoop]⟩
    rintro ⟨b, d, a, h, _⟩
    simp at h
  | cons d dirs ih =>
    have hfull : (if isRooted (pathJoin [d, name]) then pathJoin [d, name] else pathJoin [img.wd, pathJoin [d, name]]) = Spec.located img d name := by
      unfold Spec.located; rw [wd_spec]
    rw [lookLoop, hfull]
    by_cases he : img.executable (Spec.located img d name) = true
    · simp only [if_pos he]
      have hE := (executable_iff _ _).mp he
      refine ⟨fun p => ⟨?_, ?_⟩, ⟨fun h => (nomatch h), fun h => absurd hE (h d (by simp))⟩⟩
      · intro h; cases h; exact ⟨[], d, dirs, rfl, rfl, hE, by simp⟩
      · rintro ⟨b, d', a, h1, rfl, h2, h3⟩
        cases b with
        | nil => cases h1; rfl
        | cons x b => cases h1; exact absurd hE (h3 d (by simp))
    · simp only [if_neg he]
      have hE : ¬ Spec.Executable img (Spec.located img d name) := fun h => he ((executable_iff _ _).mpr h)
      refine ⟨fun p => ?_, ?_⟩
      · rw [ih.1 p]
        constructor
        · rintro ⟨b, d', a, h1, h2, h3, h4⟩
          refine ⟨d :: b, d', a, by rw [h1]; rfl, h2, h3, ?_⟩
          intro x hx
          rcases List.mem_cons.mp hx with rfl | hx
          · exact hE
          · exact h4 x hx
        · rintro ⟨b, d', a, h1, h2, h3, h4⟩
          cases b with
          | nil => cases h1; rw [← h2] at hE; exact absurd h3 hE
          | cons x b => cases h1; exact ⟨b, d', a, rfl, h2, h3, fun y hy => h4 y (by simp [hy])⟩
      · rw [ih.2]
        constructor
        · intro h x hx
          rcases List.mem_cons.mp hx with rfl | hx
          · exact hE
          · exact h x hx
        · intro h x hx; exact h x (by simp [hx])

/-- **C77** For a name with a slash: the name itself, made absolute, if it is executable. -/
theorem C77_with_slash (img : Image) {name : Str} (hn : '/' ∈ name) (p : Str) :
    img.lookPath name = some p ↔
      p = (if isRooted name then name else pathJoin [Spec.workDir img, name]) ∧ Spec.Executable img p := by
  unfold Image.lookPath
  rw [if_pos (by simpa using hn), wd_spec]
  generalize (if isRooted name then name else pathJoin [Spec.workDir img, name]) = q
  simp only
  by_cases he : img.executable q = true
  · rw [if_pos he]
    constructor
    · intro h; cases h; exact ⟨rfl, (executable_iff _ _).mp he⟩
    · rintro ⟨rfl, _⟩; rfl
  · rw [if_neg he]
    refine ⟨fun h => (nomatch h), ?_⟩
    rintro ⟨rfl, h⟩
    exact absurd ((executable_iff _ _).mpr h) he

/-- what `LookPath` returns is executable -/
theorem lookPath_executable {img : Image} {name p : Str} (h : img.lookPath name = some p) : Spec.Executable img p := by
  by_cases hn : '/' ∈ name
  · exact ((C77_with_slash img hn p).mp h).2
  · obtain ⟨_, _, h1, _⟩ := C77_path_order img hn
    obtain ⟨_, _, _, _, _, h2, _⟩ := (h1 p).mp h
    exact h2

/-- and it finds itself -/
theorem lookPath_abs {img : Image} {p : Str} (hr : isRooted p = true) :
    img.lookPath p = if img.executable p then some p else none := by
  have hm : '/' ∈ p := by
    cases p with
    | nil => cases hr
    | cons c p => simp [isRooted] at hr; simp [hr]
  unfold Image.lookPath
  rw [if_pos (by simpa using hm), hr]
  rfl

/-- **C78** Whatever the file system: both results were found by `LookPath`. -/
theorem C78_found {lookPath : Str → Option Str} {generic c g : Str} (h : shebangs lookPath generic = some (c, g)) :
    (∃ n, lookPath n = some c) ∧ ∃ n, lookPath n = some g := by
  unfold shebangs at h
  cases hp : lookPath generic with
  | none => rw [hp] at h; cases h
  | some p =>
    rw [hp] at h
    simp only [Option.some.injEq, Prod.mk.injEq] at h
    obtain ⟨hc, hg⟩ := h
    rw [hc] at hg
    have getD_found : ∀ q, ∃ n, lookPath n = some ((lookPath q).getD p) := by
      intro q
      cases hq : lookPath q with
      | none => exact ⟨generic, hp⟩
      | some r => exact ⟨q, hq⟩
    constructor
    · rw [← hc]
      split
      · exact getD_found _
      · exact ⟨generic, hp⟩
    · rw [← hg]
      split
      · exact getD_found _
      · exact ⟨generic, hp⟩

/-- an image as it is loaded: names that are not valid in the sense of `fs.ValidPath` are not found -/
def Spec.ValidNames (img : Image) : Prop :=
  ∀ n x, img.stat n = some x → n = ['.'] ∨ ∀ e ∈ split '/' n, Plain e

/-- a path that is found and whose last element is ordinary, in a directory -/
theorem dir_file {img : Image} (hv : Spec.ValidNames img) {d file : Str} (he : Spec.Executable img (d ++ '/' :: file)) (hf : Plain file) :
    ∀ f, Plain f → pathJoin [d ++ ['/'], f] = d ++ '/' :: f := by
  obtain ⟨n, m, hn, hs, _⟩ := he
  have hcs : ∃ cs, CleanElems true cs ∧ d ++ '/' :: file = render true cs := by
    rcases hv n _ hs with rfl | hp
    · exfalso
      have : file = ['.'] := by
        cases d with
        | nil => exact (List.cons.inj hn).2
        | cons x d =>
          rw [List.cons_append, List.cons.injEq] at hn
          have h2 : '/' ∈ ['.'] := by rw [← hn.2]; simp
          simp at h2
      exact hf.2.1 this
    · refine ⟨split '/' n, ⟨0, split '/' n, by simp, hp, fun _ => rfl⟩, ?_⟩
      rw [hn]
      unfold render
      rw [if_pos rfl, join_split]
  obtain ⟨cs, hc, hcs⟩ := hcs
  have hel : cs = cleanElems true (split '/' d) ++ [file] := by
    have h1 := elems_render hc
    rw [← hcs, split_append, split_none (sep := '/') (fun c hc e => hf.2.2.2 (e ▸ hc)), cleanElems_append_plain (by simpa using hf)] at h1
    exact h1.symm
  generalize hes : cleanElems true (split '/' d) = es at hel
  have hD : ∀ x : Str, render true (es ++ [x]) = (if es = [] then [] else render true es) ++ '/' :: x := by
    intro x
    by_cases h : es = []
    · rw [if_pos h, h]; rfl
    · rw [if_neg h, render_snoc h]
  have hd : d = if es = [] then [] else render true es := by
    rw [hel, hD] at hcs
    exact List.append_cancel_right hcs
  have hroot : isRooted (d ++ ['/']) = true := by
    rw [hd]
    by_cases h : es = []
    · rw [if_pos h]; rfl
    · rw [if_neg h]; rfl
  intro f hpf
  rw [pathJoin_plain (by simp) hpf, hroot, split_append, show split '/' ([] : Str) = [[]] from rfl, cleanElems_snoc_nil, hes, hD, ← hd]

theorem plain_python {rest : Str} (h : '/' ∉ rest) : Plain ("python".toList ++ rest) := by
  refine ⟨by simp, ?_, ?_, ?_⟩
  · intro e; exact absurd (congrArg List.head? e) (by simp)
  · intro e; exact absurd (congrArg List.head? e) (by simp)
  · intro e
    rcases List.mem_append.mp e with e | e
    · exact absurd e (by decide)
    · exact h e

theorem trim_self (p s : Str) : trimPrefix (p ++ s) p = s := by
  unfold trimPrefix
  rw [if_pos (hasPrefix_iff.mpr ⟨s, rfl⟩)]
  simp

theorem exec_rooted {img : Image} {p : Str} (h : Spec.Executable img p) : isRooted p = true := by
  obtain ⟨n, _, rfl, _⟩ := h; rfl

/-- **C78** In an image both results are executable files.  If the command is found as `…/python…`, the console interpreter is that
file and the graphical one is `…/pythonw…` next to it, if that is executable, and else the same file. -/
theorem C78_python {img : Image} (hv : Spec.ValidNames img) {generic d rest : Str}
    (hg : img.lookPath generic = some (d ++ '/' :: ("python".toList ++ rest))) (hr : '/' ∉ rest) (hw : ∀ t, rest ≠ 'w' :: t) :
    (Spec.Executable img (d ++ '/' :: ("pythonw".toList ++ rest)) →
      shebangs img.lookPath generic = some (d ++ '/' :: ("python".toList ++ rest), d ++ '/' :: ("pythonw".toList ++ rest))) ∧
    (¬ Spec.Executable img (d ++ '/' :: ("pythonw".toList ++ rest)) →
      shebangs img.lookPath generic = some (d ++ '/' :: ("python".toList ++ rest), d ++ '/' :: ("python".toList ++ rest))) := by
  have he := lookPath_executable hg
  have hpl := plain_python hr
  have hplw : Plain ("pythonw".toList ++ rest) := plain_python (rest := 'w' :: rest) (by simp [hr])
  have hdf := dir_file hv he hpl _ hplw
  have hnw : hasPrefix ("python".toList ++ rest) "pythonw".toList = false := by
    rw [Bool.eq_false_iff]
    intro h
    obtain ⟨t, ht⟩ := hasPrefix_iff.mp h
    have : "python".toList ++ ('w' :: t) = "python".toList ++ rest := by rw [← ht]; rfl
    exact hw t (List.append_cancel_left this).symm
  have hroot : isRooted (d ++ '/' :: ("pythonw".toList ++ rest)) = true := by
    have h1 := exec_rooted he
    cases d with
    | nil => rfl
    | cons x d => exact h1
  have hlw := lookPath_abs (img := img) hroot
  have hyes : hasPrefix ("python".toList ++ rest) "python".toList = true := hasPrefix_iff.mpr ⟨rest, rfl⟩
  unfold shebangs
  rw [hg]
  simp only [pathSplit_slash hpl.2.2.2, hnw, hyes, trim_self, hdf, Bool.false_eq_true, if_false, Bool.not_false, Bool.and_true, if_true]
  constructor
  · intro h
    rw [hlw, if_pos ((executable_iff _ _).mpr h)]; rfl
  · intro h
    rw [hlw, if_neg (fun x => h ((executable_iff _ _).mp x))]; rfl

/-- **C78** If the command is found as `…/pythonw…`, the graphical interpreter is that file and the console one is `…/python…` next
to it, if that is executable (and its name does not start with `pythonw` again), and else the same file. -/
theorem C78_pythonw {img : Image} (hv : Spec.ValidNames img) {generic d rest : Str}
    (hg : img.lookPath generic = some (d ++ '/' :: ("pythonw".toList ++ rest))) (hr : '/' ∉ rest) (hw : ∀ t, rest ≠ 'w' :: t) :
    (Spec.Executable img (d ++ '/' :: ("python".toList ++ rest)) →
      shebangs img.lookPath generic = some (d ++ '/' :: ("python".toList ++ rest), d ++ '/' :: ("pythonw".toList ++ rest))) ∧
    (¬ Spec.Executable img (d ++ '/' :: ("python".toList ++ rest)) →
      shebangs img.lookPath generic = some (d ++ '/' :: ("pythonw".toList ++ rest), d ++ '/' :: ("pythonw".toList ++ rest))) := by
  have he := lookPath_executable hg
  have hpl := plain_python hr
  have hplw : Plain ("pythonw".toList ++ rest) := plain_python (rest := 'w' :: rest) (by simp [hr])
  have hdf := dir_file hv he hplw
  have hnw : hasPrefix ("python".toList ++ rest) "pythonw".toList = false := by
    rw [Bool.eq_false_iff]
    intro h
    obtain ⟨t, ht⟩ := hasPrefix_iff.mp h
    have : "python".toList ++ ('w' :: t) = "python".toList ++ rest := by rw [← ht]; rfl
    exact hw t (List.append_cancel_left this).symm
  have hroot : isRooted (d ++ '/' :: ("python".toList ++ rest)) = true := by
    have h1 := exec_rooted he
    cases d with
    | nil => rfl
    | cons x d => exact h1
  have hl := lookPath_abs (img := img) hroot
  have hlw := lookPath_abs (img := img) (exec_rooted he)
  rw [if_pos ((executable_iff _ _).mpr he)] at hlw
  have hyes : hasPrefix ("python".toList ++ rest) "python".toList = true := hasPrefix_iff.mpr ⟨rest, rfl⟩
  have hyesw : hasPrefix ("pythonw".toList ++ rest) "pythonw".toList = true := hasPrefix_iff.mpr ⟨rest, rfl⟩
  unfold shebangs
  rw [hg]
  simp only [pathSplit_slash hplw.2.2.2, hyesw, trim_self, hdf _ hpl, if_true]
  constructor
  · intro h
    rw [hl, if_pos ((executable_iff _ _).mpr h)]
    simp only [Option.getD_some, pathSplit_slash hpl.2.2.2, hnw, hyes, trim_self, hdf _ hplw, hlw, Bool.not_false, Bool.and_true, if_true]
  · intro h
    rw [hl, if_neg (fun x => h ((executable_iff _ _).mp x))]
    simp only [Option.getD_none, pathSplit_slash hplw.2.2.2, hyesw, Bool.not_true, Bool.and_false, Bool.false_eq_true, if_false]

def sampleImage : Image :=
  ⟨"srv".toList, ["HOME=/root".toList, "PATH=/usr/bin:bin:/opt/bin".toList, "PATH=/none".toList],
    fun n => if n ∈ ["usr/bin/sh".toList, "srv/bin/python3".toList, "opt/bin/python3".toList, "srv/bin/pythonw3".toList] then some (false, 0o755#32)
      else if n = "usr/bin/python3".toList then some (false, 0o644#32) else if n = "usr/bin".toList then some (true, 0o755#32) else none⟩

example : sampleImage.lookPath "python3".toList = some "/srv/bin/python3".toList ∧ sampleImage.lookPath "perl".toList = none ∧
    sampleImage.lookPath "../usr/bin/sh".toList = some "/usr/bin/sh".toList ∧
    shebangs sampleImage.lookPath "python3".toList = some ("/srv/bin/python3".toList, "/srv/bin/pythonw3".toList) ∧
    shebangs sampleImage.lookPath "pythonw3".toList = some ("/srv/bin/python3".toList, "/srv/bin/pythonw3".toList) := by
  decide +kernel

example : Spec.ValidNames sampleImage := by
  intro n x h
  refine Or.inr ?_
  have hn : n ∈ ["usr/bin/sh".toList, "srv/bin/python3".toList, "opt/bin/python3".toList, "srv/bin/pythonw3".toList,
      "usr/bin/python3".toList, "usr/bin".toList] := by
    unfold sampleImage at h
    simp only at h
    split at h
    · rename_i h1
      simp only [List.mem_cons, List.not_mem_nil, or_false] at h1 ⊢
      rcases h1 with h1 | h1 | h1 | h1 <;> simp [h1]
    · split at h
      · rename_i h1; simp [h1]
      · split at h
        · rename_i h1; simp [h1]
        · cases h
  have all : ∀ m ∈ ["usr/bin/sh".toList, "srv/bin/python3".toList, "opt/bin/python3".toList, "srv/bin/pythonw3".toList,
      "usr/bin/python3".toList, "usr/bin".toList], ∀ e ∈ split '/' m, e ≠ [] ∧ e ≠ ['.'] ∧ e ≠ ['.', '.'] ∧ '/' ∉ e := by decide +kernel
  exact all n hn

end Python
