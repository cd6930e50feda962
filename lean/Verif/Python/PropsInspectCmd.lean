import Verif.Python.InspectCmd
/-! C97: `ocibuild python inspect`. -/
namespace Python
open Go

namespace Spec

/-- the owner of the first of the directories that exists -/
def FirstOwner (stat : Str → Option Owner) (dirs : List Str) (o : Owner) : Prop :=
  ∃ before dir after, dirs = before ++ dir :: after ∧ stat dir = some o ∧ ∀ d ∈ before, stat d = none

/-- `name` is on the host and is an interpreter for byte code with this magic number -/
def SameMagic (env : InspectEnv) (magicB64 name path : Str) : Prop :=
  env.hostLook name = some path ∧ ∃ d, env.native path = some d ∧ d.magicB64 = magicB64

/-- the first of the names that is such an interpreter -/
def FirstCompiler (env : InspectEnv) (magicB64 : Str) (names : List Str) (path : Str) : Prop :=
  ∃ before name after, names = before ++ name :: after ∧ SameMagic env magicB64 name path ∧ ∀ n ∈ before, ∀ p, ¬ SameMagic env magicB64 n p

/-- what `inspect` reports -/
structure Reports (env : InspectEnv) (interpreter : Str) (r : Report) : Prop where
  found : shebangs env.lookPath interpreter = some (r.consoleShebang, r.graphicalShebang)
  facts : ∃ dyn, (env.image = none → env.native r.consoleShebang = some dyn) ∧
    (∀ run, env.image = some run → run r.consoleShebang = some dyn) ∧
    r.scheme = dyn.scheme ∧ r.version = dyn.version ∧ r.tags = dyn.tags ∧ env.decode dyn.magicB64 = some r.magicNumber ∧
    FirstOwner env.stat [dyn.scheme.pureLib, dyn.scheme.platLib, dyn.scheme.headers, dyn.scheme.scripts, dyn.scheme.data] r.owner ∧
    (env.image = none → r.pyCompile = [r.consoleShebang, "-m".toList, "compileall".toList]) ∧
    (env.image ≠ none → ∃ path, r.pyCompile = [path, "-m".toList, "compileall".toList] ∧
      FirstCompiler env dyn.magicB64 ["python".toList ++ itoa dyn.version.major ++ ".".toList ++ itoa dyn.version.minor,
        "python".toList ++ itoa dyn.version.major, "python".toList] path)

end Spec

theorem findOwner_iff (stat : Str → Option Owner) (dirs : List Str) (o : Owner) : findOwner stat dirs = some o ↔ Spec.FirstOwner stat dirs o := by
  induction dirs with
  | nil =>
    refine ⟨fun h => (nomatch h), ?_⟩
    rintro ⟨before, _, _, h, _⟩
    cases before <;> cases h
  | cons d ds ih =>
    rw [findOwner]
    cases hd : stat d with
    | some o' =>
      constructor
      · intro h
        injection h with h
        subst h
        exact ⟨[], d, ds, rfl, hd, fun x hx => (nomatch hx)⟩
      · rintro ⟨before, dir, after, h1, h2, h3⟩
        cases before with
        | nil =>
          obtain ⟨rfl, _⟩ := List.cons.inj h1
          rw [hd] at h2
          exact h2
        | cons b before =>
          obtain ⟨rfl, _⟩ := List.cons.inj h1
          rw [h3 d (by simp)] at hd
          cases hd
    | none =>
      simp only
      rw [ih]
      constructor
      · rintro ⟨before, dir, after, rfl, h2, h3⟩
        exact ⟨d :: before, dir, after, rfl, h2, fun x hx => (List.mem_cons.mp hx).elim (fun e => e ▸ hd) (h3 x)⟩
      · rintro ⟨before, dir, after, h1, h2, h3⟩
        cases before with
        | nil =>
          obtain ⟨rfl, _⟩ := List.cons.inj h1
          rw [hd] at h2
          cases h2
        | cons b before =>
          obtain ⟨_, h1⟩ := List.cons.inj h1
          exact ⟨before, dir, after, h1, h2, fun x hx => h3 x (by simp [hx])⟩

theorem sameMagic_some {env : InspectEnv} {m name path : Str} {d : Dyn} (h1 : env.hostLook name = some path) (h2 : env.native path = some d) (p : Str) :
    Spec.SameMagic env m name p ↔ p = path ∧ d.magicB64 = m := by
  constructor
  · rintro ⟨h3, d', h4, h5⟩
    rw [h1] at h3
    injection h3 with h3
    subst h3
    rw [h2] at h4
    injection h4 with h4
    subst h4
    exact ⟨rfl, h5⟩
  · rintro ⟨rfl, h⟩
    exact ⟨h1, d, h2, h⟩

theorem first_skip {env : InspectEnv} {m name : Str} {names : List Str} (h : ∀ p, ¬ Spec.SameMagic env m name p) (path : Str) :
    Spec.FirstCompiler env m (name :: names) path ↔ Spec.FirstCompiler env m names path := by
  constructor
  · rintro ⟨before, n, after, h1, h2, h3⟩
    cases before with
    | nil =>
      obtain ⟨rfl, _⟩ := List.cons.inj h1
      exact absurd h2 (h path)
    | cons b before =>
      obtain ⟨_, h1⟩ := List.cons.inj h1
      exact ⟨before, n, after, h1, h2, fun x hx => h3 x (by simp [hx])⟩
  · rintro ⟨before, n, after, rfl, h2, h3⟩
    exact ⟨name :: before, n, after, rfl, h2, fun x hx => (List.mem_cons.mp hx).elim (fun e => e ▸ h) (h3 x)⟩

theorem findCompiler_iff (env : InspectEnv) (m : Str) (names : List Str) (cmd : List Str) :
    findCompiler env m names = some cmd ↔ ∃ path, cmd = [path, "-m".toList, "compileall".toList] ∧ Spec.FirstCompiler env m names path := by
  induction names with
  | nil =>
    refine ⟨fun h => (nomatch h), ?_⟩
    rintro ⟨_, _, before, _, _, h, _⟩
    cases before <;> cases h
  | cons name names ih =>
    have skip : (∀ p, ¬ Spec.SameMagic env m name p) → (findCompiler env m names = some cmd ↔
        ∃ path, cmd = [path, "-m".toList, "compileall".toList] ∧ Spec.FirstCompiler env m (name :: names) path) := by
      intro h
      rw [ih]
      simp only [first_skip h]
    rw [findCompiler]
    cases hl : env.hostLook name with
    | none =>
      refine skip ?_
      rintro p ⟨h, _⟩
      rw [hl] at h; cases h
    | some path =>
      simp only
      cases hn : env.native path with
      | none =>
        refine skip ?_
        rintro p ⟨h, d, h', _⟩
        rw [hl] at h
        injection h with h
        subst h
        rw [hn] at h'; cases h'
      | some d =>
        simp only
        have hs := sameMagic_some (m := m) hl hn
        by_cases hm : d.magicB64 = m
        · rw [if_pos hm]
          constructor
          · intro h
            injection h with h
            exact ⟨path, h.symm, [], name, names, rfl, (hs path).mpr ⟨rfl, hm⟩, fun x hx => (nomatch hx)⟩
          · rintro ⟨p, rfl, before, n, after, h1, h2, h3⟩
            cases before with
            | nil =>
              obtain ⟨rfl, _⟩ := List.cons.inj h1
              rw [((hs p).mp h2).1]
            | cons b before =>
              obtain ⟨rfl, _⟩ := List.cons.inj h1
              exact absurd ((hs path).mpr ⟨rfl, hm⟩) (h3 name (by simp) path)
        · rw [if_neg hm]
          exact skip (fun p h => hm ((hs p).mp h).2)

/-- **C97**: `inspect` reports exactly what the inspected interpreter says about itself, the owner of the first directory of its
scheme that exists, and a command for compiling byte code: the interpreter itself, or for an image the first Python of the host
that writes byte code with the same magic number; and it fails if there is none. -/
theorem C97_inspect (env : InspectEnv) (interpreter : Str) (r : Report) : inspect env interpreter = some r ↔ Spec.Reports env interpreter r := by
  have hnames : ∀ v : VersionInfo, compilerNames v = ["python".toList ++ itoa v.major ++ ".".toList ++ itoa v.minor,
      "python".toList ++ itoa v.major, "python".toList] := by
    intro v
    unfold compilerNames
    congr 1
    rw [List.append_assoc _ ".".toList]
    rfl
  constructor
  · intro h
    unfold inspect at h
    cases h1 : shebangs env.lookPath interpreter with
    | none => rw [h1] at h; cases h
    | some cg =>
      obtain ⟨c, g⟩ := cg
      rw [h1] at h
      simp only at h
      cases hi : env.image with
      | none =>
        rw [hi] at h
        simp only at h
        cases h2 : env.native c with
        | none => rw [h2] at h; cases h
        | some dyn =>
          rw [h2] at h
          simp only at h
          cases h3 : env.decode dyn.magicB64 with
          | none => rw [h3] at h; cases h
          | some magic =>
            rw [h3] at h
            simp only at h
            cases h4 : findOwner env.stat [dyn.scheme.pureLib, dyn.scheme.platLib, dyn.scheme.headers, dyn.scheme.scripts, dyn.scheme.data] with
            | none => rw [h4] at h; cases h
            | some o =>
              rw [h4] at h
              simp only [Option.some.injEq] at h
              subst h
              exact ⟨h1, dyn, fun _ => h2, fun run e => (nomatch (hi.symm.trans e)), rfl, rfl, rfl, h3, (findOwner_iff _ _ _).mp h4, fun _ => rfl,
                fun e => absurd hi e⟩
      | some run =>
        rw [hi] at h
        simp only at h
        cases h2 : run c with
        | none => rw [h2] at h; cases h
        | some dyn =>
          rw [h2] at h
          simp only at h
          cases h3 : env.decode dyn.magicB64 with
          | none => rw [h3] at h; cases h
          | some magic =>
            rw [h3] at h
            simp only at h
            cases h4 : findOwner env.stat [dyn.scheme.pureLib, dyn.scheme.platLib, dyn.scheme.headers, dyn.scheme.scripts, dyn.scheme.data] with
            | none => rw [h4] at h; cases h
            | some o =>
              rw [h4] at h
              simp only at h
              cases h5 : findCompiler env dyn.magicB64 (compilerNames dyn.version) with
              | none => rw [h5] at h; cases h
              | some cmd =>
                rw [h5] at h
                simp only [Option.some.injEq] at h
                subst h
                rw [hnames] at h5
                refine ⟨h1, dyn, fun e => (nomatch (hi.symm.trans e)), ?_, rfl, rfl, rfl, h3, (findOwner_iff _ _ _).mp h4, fun e => (nomatch (hi.symm.trans e)),
                  fun _ => (findCompiler_iff _ _ _ _).mp h5⟩
                intro run' e
                rw [hi] at e
                injection e with e
                subst e
                exact h2
  · rintro ⟨h1, dyn, h2, h3, h4, h5, h6, h7, h8, h9, h10⟩
    unfold inspect
    rw [h1]
    simp only
    cases hi : env.image with
    | none =>
      simp only [h2 hi, h7, (findOwner_iff _ _ _).mpr h8]
      rw [← h9 hi, ← h4, ← h5, ← h6]
    | some run =>
      obtain hc := (findCompiler_iff _ _ _ _).mpr (h10 (by rw [hi]; exact fun e => (nomatch e)))
      rw [← hnames] at hc
      simp only [h3 run hi, h7, (findOwner_iff _ _ _).mpr h8, hc]
      rw [← h4, ← h5, ← h6]

def toyDyn (magic : String) : Dyn := ⟨magic.toList, [], ⟨3, 9, 1, "final".toList, 0⟩,
  ⟨"/l/pure".toList, "/l/plat".toList, "/h".toList, "/bin".toList, "/d".toList⟩⟩

/-- an image in which purelib does not exist yet, and a host whose python3.9 has another magic number -/
def toyInspect : InspectEnv :=
  { lookPath := fun n => some ("/usr/bin/".toList ++ n), stat := fun d => if d = "/l/plat".toList then some ⟨5, 6, "u".toList, "g".toList⟩ else none
    native := fun p => if p = "/host/python3".toList then some (toyDyn "QQ==") else some (toyDyn "Qg=="), image := some (fun _ => some (toyDyn "QQ=="))
    hostLook := fun n => some ("/host/".toList ++ n), decode := fun _ => some [65] }

example : (inspect toyInspect "python3".toList).map (fun r => (r.consoleShebang, r.owner.uid, r.pyCompile)) =
    some ("/usr/bin/python3".toList, 5, ["/host/python3".toList, "-m".toList, "compileall".toList]) ∧
    (inspect { toyInspect with image := none } "python3".toList).map (fun r => (r.consoleShebang, r.owner.uid, r.pyCompile)) =
    some ("/usr/bin/python3".toList, 5, ["/usr/bin/python3".toList, "-m".toList, "compileall".toList]) := by decide +kernel

end Python
