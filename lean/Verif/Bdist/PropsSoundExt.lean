import Verif.Bdist.PropsSound
import Verif.Bdist.PropsExternal
/-! C148 with `ExternalCompiler` as the compiler. -/
namespace Bdist
open Go Fsutil Python

namespace Spec

/-- files as `installToVFS` gives them to the compiler, of this wheel: installed, sound, and with names ending in `.py` -/
def WheelSources (env : Env) (p : Platform) (minTime : Option Int) (dst dir : Str) (zip : List ZFile) (srcs : List Ref) : Prop :=
  Sources srcs ∧ ∀ s ∈ srcs, SoundRef s ∧ Installed env p minTime dst dir zip s

/-- the byte code among the files `qs` below `tmp` is in readable regular files, of the sizes that the file system says, with permission
bits only, and without NUL in their names -/
def SoundCode (tmp : List Str) (h : Host) (qs : List (List Str)) : Prop :=
  ∀ q ∈ qs, IsCode tmp h q → '\x00' ∉ join ['/'] q ∧ ∃ c i, h (tmp ++ q) = some (.leaf (some c) i) ∧
    i.typeflag = '0' ∧ (c.length : Int) = i.size ∧ 0 ≤ i.mode ∧ i.mode ≤ 0o777 ∧ i.linkname = [] ∧ i.pax = [] ∧ i.other = []

/-- the command compiles the sources of the wheel: on a file system that has them in the new directory and nothing else there, it succeeds, and leaves
files that can be visited, with sound byte code -/
def CommandWorks (env : Env) (e : Machine) (exe : Str) (words : List Str) (h : Host) (plat : Platform) (minTime : Option Int) (zip : List ZFile) : Prop :=
  ∀ p dir get t srcs cmd h1, sanitizePlatform plat = .ok p → parseWheel env zip = .ok (dir, get) →
    WheelSources env p minTime (rootDir p get) dir zip srcs → Runs e exe words t [p.scheme.pureLib, p.scheme.platLib] cmd →
    Sees e.tmp e.info h srcs h1 → ∃ h2 qs, e.run cmd h1 = (h2, true) ∧ e.walk h2 = some qs ∧ SoundCode e.tmp h2 qs

/-- no `.py` file of the wheel is installed below another one -/
def NotNested (env : Env) (plat : Platform) (minTime : Option Int) (zip : List ZFile) : Prop :=
  ∀ p dir get srcs, sanitizePlatform plat = .ok p → parseWheel env zip = .ok (dir, get) →
    WheelSources env p minTime (rootDir p get) dir zip srcs → ∀ s ∈ srcs, ∀ s' ∈ srcs, ¬ Parent s.fullName s'.fullName

end Spec

/-- installed files are in the directories of the scheme -/
theorem installed_inside {env : Env} {plat p : Platform} (hp : Spec.CleanScheme plat.scheme) (hs : sanitizePlatform plat = .ok p)
    {minTime : Option Int} {zip : List ZFile} (hdown : ∀ f ∈ zip, Spec.Down f.hdr.name) {dir : Str} {get : Str → Str}
    (hw : parseWheel env zip = .ok (dir, get)) {s : Ref} (hi : Spec.Installed env p minTime (rootDir p get) dir zip s) :
    Spec.InScheme plat.scheme s.fullName := by
  obtain ⟨kind, hroot⟩ := rootDir_mem p get
  obtain ⟨cs, hne, hpl, hdst, hmem⟩ := scheme_elems hp hs hroot
  have hrel := sanitize_rel (clean_proper hp) hs
  have hdir := info_plain hw
  rcases hi.2 with ⟨k, f, kd, ⟨pre, post, hz, hk, _⟩, ⟨rest, dd, hke, hkd, hn⟩, _⟩ | ⟨_, _, f, ⟨pre, post, hz, hk, _⟩, _⟩
  · obtain ⟨es, ene, epl, rfl, emem⟩ := scheme_elems hp hs hkd
    rw [hn]
    refine ⟨kd, _, emem, join_inside ene epl ?_⟩
    have hkrel : Spec.Rel k := by
      rw [← hk]
      exact rel_join (hrel kind _ hroot).1 (hrel kind _ hroot).2 _
    rcases hke with ⟨_, rfl⟩ | hke
    · rw [down_iff]; decide
    · refine rest_down ⟨cs, dataName dir, dataName_plain hdir.2.2.2, ?_, fun a ha => (hpl a ha).2.2.2⟩ hkrel hke
      rw [hdst, dataDir_elems hne hpl hdir.2.2.2]
  · rw [← hk]
    refine ⟨kind, _, hmem, ?_⟩
    rw [hdst]
    exact join_inside hne hpl (hdown f (by rw [hz]; simp))

theorem collected_exists {tmp : List Str} {h : Host} {qs : List (List Str)} (hc : Spec.SoundCode tmp h qs) : ∃ outs, Spec.Collected tmp h qs outs := by
  induction qs with
  | nil => exact ⟨[], .nil⟩
  | cons q qs ih =>
    obtain ⟨outs, ho⟩ := ih (fun x hx => hc x (List.mem_cons_of_mem _ hx))
    by_cases hq : Spec.IsCode tmp h q
    · obtain ⟨_, c, i, h1, _⟩ := hc q (by simp) hq
      exact ⟨_, .code hq h1 ho⟩
    · exact ⟨_, .other hq ho⟩

/-- **C148**, the condition on the compiler: on a machine where the command compiles the sources of the wheel, `ExternalCompiler` is a compiler
as `C148_installs` and `C148_command` need it, for wheels whose names do not lead upwards and that have no `.py` file below another one. -/
theorem C148_compiler (env : Env) (e : Machine) (exe : Str) (words : List Str) (h : Host) (hd : Spec.NewDir e.tmp h) (hwalk : Spec.Walks e.walk)
    (henv : env.compile = externalCompiler e exe words h) (plat : Platform) (hp : Spec.CleanScheme plat.scheme) (minTime : Option Int) (zip : List ZFile)
    (hdown : ∀ f ∈ zip, Spec.Down f.hdr.name) (hnest : Spec.NotNested env plat minTime zip)
    (hcmd : Spec.CommandWorks env e exe words h plat minTime zip) : Spec.CompilesWheel env plat minTime zip := by
  intro p dir get t srcs hsan hw hsrc hs
  have hws : Spec.WheelSources env p minTime (rootDir p get) dir zip srcs := ⟨hsrc, hs⟩
  have hn : ∀ r ∈ srcs, Spec.Rel r.fullName ∧ Spec.Down r.fullName := fun r hr =>
    ⟨(hsrc.2 r hr).1, inScheme_down hp (hsrc.2 r hr).1 (installed_inside hp hsan hdown hw (hs r hr).2)⟩
  have hnm : ∀ r ∈ srcs, Named r := fun r hr => named_of (hn r hr).1 (hn r hr).2
  have hcomp : Spec.Compatible srcs := by
    refine ⟨fun r hr => ⟨?_, ?_⟩, hnest p dir get srcs hsan hw hws⟩
    · obtain ⟨_, _, c, _, hc, _⟩ := (hs r hr).1
      rw [hc]; exact Option.some_ne_none _
    · intro he
      obtain ⟨b, hb⟩ := (hsrc.2 r hr).2
      rw [he] at hb
      have := congrArg List.length hb
      rw [List.length_append] at this
      have h1 : (pathBase ".".toList).length = 1 := by decide
      rw [h1] at this
      have h2 : (".py".toList).length = 3 := by decide
      omega
  obtain ⟨h1, hsees⟩ : ∃ h1, Spec.Sees e.tmp e.info h srcs h1 := by
    rcases writeFiles_all hd.plain hd.notRoot (ready_of hd) hnm hsrc.1 with ⟨h1, _, w2, w3⟩ | ⟨_, w⟩
    · exact ⟨h1, (sees_iff hd hnm w2).mpr w3⟩
    · exact absurd ((compatible_iff hnm).mp hcomp) w
  have hruns := (runs_cmd e exe words t [p.scheme.pureLib, p.scheme.platLib] (compileCmd e exe words t [p.scheme.pureLib, p.scheme.platLib])).mpr rfl
  obtain ⟨h2, qs, hr, hq, hcode⟩ := hcmd p dir get t srcs _ h1 hsan hw hws hruns hsees
  obtain ⟨outs, ho⟩ := collected_exists hcode
  refine ⟨outs, ?_, ?_⟩
  · rw [henv]
    exact (C94_compiled_partial e exe words t _ srcs h hd hwalk hn hsrc.1 outs).mpr ⟨hcomp, h1, _, h2, qs, hsees, hruns, hr, hq, ho⟩
  · intro o hom
    obtain ⟨q, hqm, c, i, hic, hl, rfl⟩ := collected_mem ho hom
    obtain ⟨hnul, c', i', hl', k1, k2, k3, k4, k5⟩ := hcode q hqm hic
    rw [hl] at hl'
    injection hl' with hl'
    injection hl' with e1 e2
    injection e1 with e1
    subst e1 e2
    exact ⟨hnul, i, c, rfl, rfl, .inl ⟨k1, k2⟩, k3, k4, k5⟩

/-! ### A sample -/

/-- where the only module of the sample wheel is installed, and its byte code -/
def extPy : List Str := ["l".toList, "pure".toList, "m".toList, "a.py".toList]
def extPyc : List Str := ["l".toList, "pure".toList, "m".toList, "__pycache__".toList, "a.pyc".toList]

/-- a machine with a command that knows how to compile it -/
def extMachine : Machine :=
  { toyMachine with
    run := fun _ h => match h (toyMachine.tmp ++ extPy) with
      | some (.leaf _ _) => (h.set (toyMachine.tmp ++ extPyc) toyCode, true)
      | _ => (h, true)
    walk := fun h => some ([extPy, extPyc].filter (fun q => h (toyMachine.tmp ++ q) ≠ none)) }

/-- the sample wheel, with `ExternalCompiler` on this machine -/
def extWorld : World := { toyWorld cmdZip with compile := externalCompiler extMachine "/bin/python".toList ["-m".toList, "compileall".toList] toyHost }

theorem ext_walks : Spec.Walks extMachine.walk := by
  intro h qs hq
  injection hq with hq
  subst hq
  refine ⟨List.Nodup.sublist List.filter_sublist (by decide +kernel), ?_⟩
  intro q hq
  have h1 : ∀ q ∈ [extPy, extPyc], q ≠ [] ∧ ∀ c ∈ q, Plain c := by unfold Plain; decide +kernel
  exact h1 q (List.mem_filter.mp hq).1

/-- the only `.py` file of the sample wheel -/
theorem ext_name {p : Platform} {dir : Str} {get : Str → Str} (hp : sanitizePlatform toyPlat = .ok p) (hw : parseWheel extWorld.toEnv cmdZip = .ok (dir, get))
    {s : Ref} (hi : Spec.Installed extWorld.toEnv p none (rootDir p get) dir cmdZip s) (hb : ∃ b, pathBase s.fullName = b ++ ".py".toList) :
    s.fullName = join ['/'] extPy := by
  rw [toy_platform] at hp
  cases hp
  have hw' : ∃ get, parseWheel extWorld.toEnv cmdZip = .ok ("x.dist-info".toList, get) ∧ get "Root-Is-Purelib".toList = "true".toList := ⟨_, rfl, rfl⟩
  obtain ⟨get', hw', hroot⟩ := hw'
  rw [hw'] at hw
  cases hw
  unfold rootDir at hi
  rw [if_pos hroot] at hi
  rw [← suffix_iff] at hb
  rcases hi.2 with ⟨k, f, kd, ⟨pre, post, hz, hk, _⟩, hm, _⟩ | ⟨_, _, f, ⟨pre, post, hz, hk, _⟩, _⟩
  · have hf : f ∈ cmdZip := by rw [hz]; simp
    have hall : ∀ f ∈ cmdZip, ((moveTo ⟨"l/pure".toList, "l/plat".toList, "h".toList, "bin".toList, "d".toList⟩
        (dataDir "l/pure".toList "x.dist-info".toList) (pathJoin ["l/pure".toList, f.hdr.name])).all
          (fun x => !hasSuffix (pathBase x.1) ".py".toList)) = true := by decide +kernel
    have h1 := hall f hf
    rw [hk, moveTo_of hm] at h1
    simp only [Option.all_some] at h1
    rw [hb] at h1
    cases h1
  · have hf : f ∈ cmdZip := by rw [hz]; simp
    have hall : ∀ f ∈ cmdZip, hasSuffix (pathBase (pathJoin ["l/pure".toList, f.hdr.name])) ".py".toList = true →
        pathJoin ["l/pure".toList, f.hdr.name] = join ['/'] extPy := by decide +kernel
    have h1 := hall f hf
    rw [hk] at h1
    exact h1 hb

theorem ext_nested : Spec.NotNested extWorld.toEnv toyPlat none cmdZip := by
  intro p dir get srcs hp hw ⟨h1, h2⟩ s hs s' hs' ⟨x, hx⟩
  rw [ext_name hp hw (h2 s hs).2 (h1.2 s hs).2, ext_name hp hw (h2 s' hs').2 (h1.2 s' hs').2] at hx
  have := congrArg List.length hx
  simp at this

theorem ext_works : Spec.CommandWorks extWorld.toEnv extMachine "/bin/python".toList ["-m".toList, "compileall".toList] toyHost toyPlat none cmdZip := by
  intro p dir get t srcs cmd h1 hp hw ⟨hs, hi⟩ _ hsees
  have hfree : h1 (toyMachine.tmp ++ extPyc) = none := by
    rcases hx : h1 (toyMachine.tmp ++ extPyc) with _ | n
    · rfl
    · exfalso
      obtain ⟨r, hr, hpre⟩ := hsees.nothingElse extPyc (by decide) (by
        intro hc
        rw [show extMachine.tmp = toyMachine.tmp from rfl, hx] at hc
        cases hc)
      rw [ext_name hp hw (hi r hr).2 (hs.2 r hr).2] at hpre
      exact absurd (List.isPrefixOf_iff_prefix.mpr hpre) (by decide +kernel)
  have hcode : ¬ ∃ b, join ['/'] extPy = b ++ ".pyc".toList := by
    rw [← suffix_iff]; decide +kernel
  have hrun : ∃ h2, extMachine.run cmd h1 = (h2, true) ∧ (h2 (toyMachine.tmp ++ extPyc) = none ∨ h2 (toyMachine.tmp ++ extPyc) = some toyCode) := by
    show ∃ h2, (match h1 (toyMachine.tmp ++ extPy) with
      | some (.leaf _ _) => (h1.set (toyMachine.tmp ++ extPyc) toyCode, true)
      | _ => (h1, true)) = (h2, true) ∧ _
    split
    · exact ⟨_, rfl, .inr (Host.set_same ..)⟩
    · exact ⟨_, rfl, .inl hfree⟩
  obtain ⟨h2, hr, hpc⟩ := hrun
  refine ⟨h2, _, hr, rfl, ?_⟩
  intro q hq hic
  have hq := (List.mem_filter.mp hq).1
  simp only [List.mem_cons, List.not_mem_nil, or_false] at hq
  rcases hq with rfl | rfl
  · exact absurd hic.2 hcode
  · refine ⟨by decide +kernel, ?_⟩
    rcases hpc with hpc | hpc
    · obtain ⟨⟨c, i, hc⟩, _⟩ := hic
      rw [show extMachine.tmp = toyMachine.tmp from rfl, hpc] at hc
      cases hc
    · exact ⟨[7], _, hpc, rfl, rfl, by decide, by decide, rfl, rfl, rfl⟩

/-- the hypotheses of `C148_compiler` are met -/
example : Spec.CompilesWheel extWorld.toEnv toyPlat none cmdZip :=
  C148_compiler extWorld.toEnv extMachine "/bin/python".toList ["-m".toList, "compileall".toList] toyHost toy_new ext_walks rfl toyPlat toy_clean none cmdZip cmd_down
    ext_nested ext_works

end Bdist
