import Verif.Bdist.FuncRef
import Verif.Bdist.PropsRecord
import Verif.Python.PropsConfig
/-! C52: the scripts of the entry points of an installed wheel. -/
namespace Bdist
open Go Fsutil Python

namespace Spec

/-- the program for an entry point: it imports `name` from the module `mod` and calls `func` -/
def program (interpreter mod name func : Str) : Str :=
  "#!".toList ++ interpreter ++ ['\n'] ++
  "# -*- coding: utf-8 -*-\n".toList ++
  "import re\n".toList ++
  "import sys\n".toList ++
  "from ".toList ++ mod ++ " import ".toList ++ name ++ ['\n'] ++
  "if __name__ == '__main__':\n".toList ++
  "    sys.argv[0] = re.sub(r'(-script\\.pyw|\\.exe)?$', '', sys.argv[0])\n".toList ++
  "    sys.exit(".toList ++ func ++ "())\n".toList

/-- `cfg` has the option `key = val` in the section for console programs or in that for graphical programs -/
def Declares (plat : Platform) (cfg : Config) (key val interpreter : Str) : Prop :=
  (∃ data, getKey "console_scripts".toList cfg = some data ∧ (key, val) ∈ data ∧ interpreter = plat.consoleShebang) ∨
  (∃ data, getKey "gui_scripts".toList cfg = some data ∧ (key, val) ∈ data ∧ interpreter = plat.graphicalShebang)

/-- the configuration in entry_points.txt -/
def EntryPoints (decode : Bytes → Str) (m : Map Ref) (dir : Str) (cfg : Config) : Prop :=
  ∃ r c, m.get? (pathJoin [dir, "entry_points.txt".toList]) = some r ∧ r.content = some c ∧ parseConfig entryParser (decode c) = .ok cfg

end Spec

theorem entryParser_usual : Python.Spec.Usual entryParser :=
  ⟨rfl, rfl, rfl, by intro d hd; rw [show entryParser.delimiters = ["=".toList] from rfl, List.mem_singleton] at hd; exact ⟨'=', hd⟩, by decide⟩

/-- **C52**: entry_points.txt is read as a document of the grammar of C75 in which no section and no option occurs twice; names of
options are kept as they are, and only "=" separates them from their values. -/
theorem C52_config (decode : Bytes → Str) (m : Map Ref) (dir : Str) (cfg : Config) : Spec.EntryPoints decode m dir cfg ↔
    ∃ r c d, m.get? (pathJoin [dir, "entry_points.txt".toList]) = some r ∧ r.content = some c ∧
      Python.Spec.Document entryParser (split '\n' (decode c)) d ∧ Python.Spec.Distinct d ∧ cfg = Python.Spec.toConfig d := by
  constructor
  · rintro ⟨r, c, h1, h2, h3⟩
    obtain ⟨d, h4, h5, h6⟩ := (C75_parse entryParser_usual _ _).mp h3
    exact ⟨r, c, d, h1, h2, h4, h5, h6⟩
  · rintro ⟨r, c, d, h1, h2, h4, h5, h6⟩
    exact ⟨r, c, h1, h2, (C75_parse entryParser_usual _ _).mpr ⟨d, h4, h5, h6⟩⟩

theorem scriptText_eq (i mod func : Str) : scriptText i mod func = Spec.program i mod func func := by
  have e1 : "\n# -*- coding: utf-8 -*-\nimport re\nimport sys\nfrom ".toList =
    ['\n'] ++ ("# -*- coding: utf-8 -*-\n".toList ++ ("import re\n".toList ++ ("import sys\n".toList ++ "from ".toList))) := by decide +kernel
  have e2 : "\nif __name__ == '__main__':\n    sys.argv[0] = re.sub(r'(-script\\.pyw|\\.exe)?$', '', sys.argv[0])\n    sys.exit(".toList =
    ['\n'] ++ ("if __name__ == '__main__':\n".toList ++
      ("    sys.argv[0] = re.sub(r'(-script\\.pyw|\\.exe)?$', '', sys.argv[0])\n".toList ++ "    sys.exit(".toList)) := by decide +kernel
  unfold scriptText Spec.program
  rw [e1, e2]
  simp only [List.append_assoc]

/-- the place of a script -/
def scriptPlace (scripts key : Str) : Str := pathJoin [scripts.drop 1, key]

section
variable {t : Int} {scripts : Str}

theorem addScripts_error (shebang : Str) : ∀ (l : List (Str × Str)) (m : Map Ref),
    addScripts t scripts shebang l m = .error () ↔ ∃ e ∈ l, ¬ ∃ mod attr, Spec.FuncRef e.2 mod attr
  | [], m => by simp [addScripts]
  | e :: l, m => by
    unfold addScripts
    cases hf : funcRef e.2 with
    | error x =>
      have := (funcRef_error e.2).mp hf
      exact ⟨fun _ => ⟨e, by simp, this⟩, fun _ => rfl⟩
    | ok r =>
      simp only
      rw [addScripts_error]
      constructor
      · rintro ⟨x, hx, h⟩; exact ⟨x, List.mem_cons_of_mem _ hx, h⟩
      · rintro ⟨x, hx, h⟩
        rcases List.mem_cons.mp hx with rfl | hx
        · exact absurd ⟨r.1, r.2, (funcRef_iff _ _ _).mp hf⟩ h
        · exact ⟨x, hx, h⟩

/-- the files after one loop -/
theorem addScripts_get (shebang : Str) : ∀ {l : List (Str × Str)} {m m' : Map Ref}, addScripts t scripts shebang l m = .ok m' → ∀ n,
    (∃ e ∈ l, scriptPlace scripts e.1 = n ∧ ∃ mod attr, Spec.FuncRef e.2 mod attr ∧
      m'.get? n = some (memFile t n 0o755 (enc (Spec.program shebang mod attr attr)))) ∨
    (∀ e ∈ l, scriptPlace scripts e.1 ≠ n) ∧ m'.get? n = m.get? n
  | [], m, m', h, n => by cases h; exact Or.inr ⟨fun e he => (nomatch he), rfl⟩
  | e :: l, m, m', h, n => by
    unfold addScripts at h
    cases hf : funcRef e.2 with
    | error x => rw [hf] at h; cases h
    | ok r =>
      rw [hf] at h
      simp only at h
      rcases addScripts_get shebang h n with ⟨x, hx, h1⟩ | ⟨h1, h2⟩
      · exact Or.inl ⟨x, List.mem_cons_of_mem _ hx, h1⟩
      · rw [Map.get?_set] at h2
        split at h2
        · rename_i hn
          left
          refine ⟨e, by simp, hn.symm, r.1, r.2, (funcRef_iff _ _ _).mp hf, ?_⟩
          rw [h2, scriptText_eq, ← hn]
        · rename_i hn
          right
          refine ⟨?_, h2⟩
          intro x hx
          rcases List.mem_cons.mp hx with rfl | hx
          · exact fun e => hn e.symm
          · exact h1 x hx

end

/-- one of the sections -/
def InSection (cfg : Config) (sect key val : Str) : Prop := ∃ data, getKey sect cfg = some data ∧ (key, val) ∈ data

section
variable {t : Int} {scripts : Str} {order : List (Str × Str) → List (Str × Str)} (ho : ∀ l, (order l).Perm l) {cfg : Config}
include ho

theorem addSection_error (sect shebang : Str) (m : Map Ref) : addSection t scripts order cfg sect shebang m = .error () ↔
    ∃ key val, InSection cfg sect key val ∧ ¬ ∃ mod attr, Spec.FuncRef val mod attr := by
  unfold addSection
  cases hg : getKey sect cfg with
  | none =>
    refine ⟨fun h => (nomatch h), ?_⟩
    rintro ⟨key, val, ⟨data, h, _⟩, _⟩
    rw [hg] at h; cases h
  | some data =>
    simp only
    rw [addScripts_error]
    constructor
    · rintro ⟨e, he, h⟩; exact ⟨e.1, e.2, ⟨data, hg, (ho data).mem_iff.mp he⟩, h⟩
    · rintro ⟨key, val, ⟨data', h, hm⟩, h2⟩
      rw [hg] at h; cases h
      exact ⟨(key, val), (ho data).mem_iff.mpr hm, h2⟩

theorem addSection_get {sect shebang : Str} {m m' : Map Ref} (h : addSection t scripts order cfg sect shebang m = .ok m') (n : Str) :
    (∃ key val, InSection cfg sect key val ∧ scriptPlace scripts key = n ∧ ∃ mod attr, Spec.FuncRef val mod attr ∧
      m'.get? n = some (memFile t n 0o755 (enc (Spec.program shebang mod attr attr)))) ∨
    (∀ key val, InSection cfg sect key val → scriptPlace scripts key ≠ n) ∧ m'.get? n = m.get? n := by
  unfold addSection at h
  cases hg : getKey sect cfg with
  | none =>
    rw [hg] at h; cases h
    right
    refine ⟨?_, rfl⟩
    rintro key val ⟨data, h, _⟩
    rw [hg] at h; cases h
  | some data =>
    rw [hg] at h
    rcases addScripts_get shebang h n with ⟨e, he, h1, h2⟩ | ⟨h1, h2⟩
    · exact Or.inl ⟨e.1, e.2, ⟨data, hg, (ho data).mem_iff.mp he⟩, h1, h2⟩
    · right
      refine ⟨?_, h2⟩
      rintro key val ⟨data', h, hm⟩
      rw [hg] at h; cases h
      exact h1 (key, val) ((ho data).mem_iff.mpr hm)

end

theorem declares_iff {plat : Platform} {cfg : Config} {key val i : Str} : Spec.Declares plat cfg key val i ↔
    InSection cfg "console_scripts".toList key val ∧ i = plat.consoleShebang ∨ InSection cfg "gui_scripts".toList key val ∧ i = plat.graphicalShebang := by
  unfold Spec.Declares InSection
  constructor
  · rintro (⟨d, h1, h2, h3⟩ | ⟨d, h1, h2, h3⟩)
    · exact Or.inl ⟨⟨d, h1, h2⟩, h3⟩
    · exact Or.inr ⟨⟨d, h1, h2⟩, h3⟩
  · rintro (⟨⟨d, h1, h2⟩, h3⟩ | ⟨⟨d, h1, h2⟩, h3⟩)
    · exact Or.inl ⟨d, h1, h2, h3⟩
    · exact Or.inr ⟨d, h1, h2, h3⟩

/-- two steps, one after the other -/
theorem bind_error {f g : Map Ref → Except Unit (Map Ref)} {P Q : Prop} (hf : ∀ m, f m = .error () ↔ P) (hg : ∀ m, g m = .error () ↔ Q) (m : Map Ref) :
    (f m).bind g = .error () ↔ P ∨ Q := by
  cases h : f m with
  | error e => exact ⟨fun _ => Or.inl ((hf m).mp h), fun _ => rfl⟩
  | ok a =>
    have : ¬ P := fun hp => by rw [(hf m).mpr hp] at h; cases h
    show g a = .error () ↔ _
    rw [hg]
    exact ⟨Or.inr, fun h => h.resolve_left this⟩

theorem bind_ok {f g : Map Ref → Except Unit (Map Ref)} {m m' : Map Ref} (h : (f m).bind g = .ok m') : ∃ a, f m = .ok a ∧ g a = .ok m' := by
  cases hf : f m with
  | error e => rw [hf] at h; cases h
  | ok a => rw [hf] at h; exact ⟨a, rfl, h⟩

/-- **C52**: the hook fails exactly if the platform is not valid, or there is an entry_points.txt that cannot be read or is not a
valid configuration or declares a script with something that is not a function reference -- whatever the order of its loops. -/
theorem C52_error (env : HookEnv) (guiFirst : Bool) (order : List (Str × Str) → List (Str × Str)) (ho : ∀ l, (order l).Perm l) (plat : Platform)
    (t : Int) (m : Map Ref) (dir : Str) :
    scriptsHook env guiFirst order plat t m dir = .error () ↔ plat.init = .error () ∨
      ∃ r, m.get? (pathJoin [dir, "entry_points.txt".toList]) = some r ∧
        (r.content = none ∨ ∃ c, r.content = some c ∧
          (parseConfig entryParser (env.decode c) = .error () ∨ ∃ cfg, parseConfig entryParser (env.decode c) = .ok cfg ∧
            ∃ key val i, Spec.Declares plat cfg key val i ∧ ¬ ∃ mod attr, Spec.FuncRef val mod attr)) := by
  unfold scriptsHook
  cases hp : plat.init with
  | error e => exact ⟨fun _ => Or.inl rfl, fun _ => rfl⟩
  | ok p =>
    simp only
    cases hg : m.get? (pathJoin [dir, "entry_points.txt".toList]) with
    | none =>
      refine ⟨fun h => (nomatch h), ?_⟩
      rintro (h | ⟨r, h, _⟩)
      · cases h
      · cases h
    | some r =>
      simp only
      cases hc : r.content with
      | none => exact ⟨fun _ => Or.inr ⟨r, rfl, Or.inl hc⟩, fun _ => rfl⟩
      | some c =>
        simp only
        cases hcfg : parseConfig entryParser (env.decode c) with
        | error e => exact ⟨fun _ => Or.inr ⟨r, rfl, Or.inr ⟨c, hc, Or.inl hcfg⟩⟩, fun _ => rfl⟩
        | ok cfg =>
          simp only
          have hE : ∀ sect shebang m, addSection t p.scheme.scripts order cfg sect shebang m = .error () ↔
            ∃ key val, InSection cfg sect key val ∧ ¬ ∃ mod attr, Spec.FuncRef val mod attr := fun sect shebang m => addSection_error ho sect shebang m
          have hL : (if guiFirst then
              (addSection t p.scheme.scripts order cfg "gui_scripts".toList p.graphicalShebang m).bind
                (addSection t p.scheme.scripts order cfg "console_scripts".toList p.consoleShebang)
              else (addSection t p.scheme.scripts order cfg "console_scripts".toList p.consoleShebang m).bind
                (addSection t p.scheme.scripts order cfg "gui_scripts".toList p.graphicalShebang)) = .error () ↔
              (∃ key val, InSection cfg "console_scripts".toList key val ∧ ¬ ∃ mod attr, Spec.FuncRef val mod attr) ∨
              (∃ key val, InSection cfg "gui_scripts".toList key val ∧ ¬ ∃ mod attr, Spec.FuncRef val mod attr) := by
            cases guiFirst with
            | true =>
              rw [if_pos rfl, bind_error (hE _ _) (hE _ _)]
              exact Or.comm
            | false =>
              rw [if_neg (by decide), bind_error (hE _ _) (hE _ _)]
          rw [hL]
          constructor
          · rintro (⟨key, val, h1, h2⟩ | ⟨key, val, h1, h2⟩)
            · exact Or.inr ⟨r, rfl, Or.inr ⟨c, hc, Or.inr ⟨cfg, hcfg, key, val, _, declares_iff.mpr (Or.inl ⟨h1, rfl⟩), h2⟩⟩⟩
            · exact Or.inr ⟨r, rfl, Or.inr ⟨c, hc, Or.inr ⟨cfg, hcfg, key, val, _, declares_iff.mpr (Or.inr ⟨h1, rfl⟩), h2⟩⟩⟩
          · rintro (h | ⟨r', h, h' | ⟨c', h', h'' | ⟨cfg', h'', key, val, i, h1, h2⟩⟩⟩)
            · cases h
            · cases h; rw [hc] at h'; cases h'
            · cases h; rw [hc] at h'; cases h'; rw [hcfg] at h''; cases h''
            · cases h; rw [hc] at h'; cases h'; rw [hcfg] at h''; cases h''
              rcases declares_iff.mp h1 with ⟨h1, _⟩ | ⟨h1, _⟩
              · exact Or.inl ⟨key, val, h1, h2⟩
              · exact Or.inr ⟨key, val, h1, h2⟩

/-- **C52**: if the hook succeeds, whatever the order of its loops: without an entry_points.txt nothing changes.  With one, every place
where a script is declared has an executable file with the program of such a script; at all other places nothing changes. -/
theorem C52_scripts (env : HookEnv) (guiFirst : Bool) (order : List (Str × Str) → List (Str × Str)) (ho : ∀ l, (order l).Perm l) (plat p : Platform)
    (hp : plat.init = .ok p) (t : Int) (m m' : Map Ref) (dir : Str) (h : scriptsHook env guiFirst order plat t m dir = .ok m') :
    (m.get? (pathJoin [dir, "entry_points.txt".toList]) = none ∧ m' = m) ∨
    ∃ cfg, Spec.EntryPoints env.decode m dir cfg ∧ ∀ n,
      (∃ key val i, Spec.Declares p cfg key val i ∧ pathJoin [p.scheme.scripts.drop 1, key] = n ∧ ∃ mod attr, Spec.FuncRef val mod attr ∧
        m'.get? n = some (memFile t n 0o755 (enc (Spec.program i mod attr attr)))) ∨
      (∀ key val i, Spec.Declares p cfg key val i → pathJoin [p.scheme.scripts.drop 1, key] ≠ n) ∧ m'.get? n = m.get? n := by
  unfold scriptsHook at h
  rw [hp] at h
  simp only at h
  cases hg : m.get? (pathJoin [dir, "entry_points.txt".toList]) with
  | none => rw [hg] at h; cases h; exact Or.inl ⟨rfl, rfl⟩
  | some r =>
    rw [hg] at h
    simp only at h
    cases hc : r.content with
    | none => rw [hc] at h; cases h
    | some c =>
      rw [hc] at h
      simp only at h
      cases hcfg : parseConfig entryParser (env.decode c) with
      | error e => rw [hcfg] at h; cases h
      | ok cfg =>
        rw [hcfg] at h
        simp only at h
        right
        refine ⟨cfg, ⟨r, c, hg, hc, hcfg⟩, ?_⟩
        intro n
        -- the two steps, in either order
        have two : ∀ {s1 s2 i1 i2 : Str} {a : Map Ref}, addSection t p.scheme.scripts order cfg s1 i1 m = .ok a →
            addSection t p.scheme.scripts order cfg s2 i2 a = .ok m' →
            (∃ key val i, (InSection cfg s1 key val ∧ i = i1 ∨ InSection cfg s2 key val ∧ i = i2) ∧ pathJoin [p.scheme.scripts.drop 1, key] = n ∧
              ∃ mod attr, Spec.FuncRef val mod attr ∧ m'.get? n = some (memFile t n 0o755 (enc (Spec.program i mod attr attr)))) ∨
            (∀ key val i, (InSection cfg s1 key val ∧ i = i1 ∨ InSection cfg s2 key val ∧ i = i2) → pathJoin [p.scheme.scripts.drop 1, key] ≠ n) ∧
              m'.get? n = m.get? n := by
          intro s1 s2 i1 i2 a ha hb
          rcases addSection_get ho hb n with ⟨key, val, h1, h2, h3⟩ | ⟨h1, h2⟩
          · exact Or.inl ⟨key, val, i2, Or.inr ⟨h1, rfl⟩, h2, h3⟩
          · rcases addSection_get ho ha n with ⟨key, val, g1, g2, mod, attr, g3, g4⟩ | ⟨g1, g2⟩
            · exact Or.inl ⟨key, val, i1, Or.inl ⟨g1, rfl⟩, g2, mod, attr, g3, by rw [h2, g4]⟩
            · right
              refine ⟨?_, by rw [h2, g2]⟩
              rintro key val i (⟨h, _⟩ | ⟨h, _⟩)
              · exact g1 key val h
              · exact h1 key val h
        cases guiFirst with
        | false =>
          rw [if_neg (by decide)] at h
          obtain ⟨a, ha, hb⟩ := bind_ok h
          rcases two ha hb with ⟨key, val, i, h1, h2⟩ | ⟨h1, h2⟩
          · exact Or.inl ⟨key, val, i, declares_iff.mpr h1, h2⟩
          · exact Or.inr ⟨fun key val i hd => h1 key val i (declares_iff.mp hd), h2⟩
        | true =>
          rw [if_pos rfl] at h
          obtain ⟨a, ha, hb⟩ := bind_ok h
          rcases two ha hb with ⟨key, val, i, h1, h2⟩ | ⟨h1, h2⟩
          · exact Or.inl ⟨key, val, i, declares_iff.mpr h1.symm, h2⟩
          · exact Or.inr ⟨fun key val i hd => h1 key val i (declares_iff.mp hd).symm, h2⟩

/-- **C52** where scripts go: into the scripts directory, under the declared name. -/
theorem C52_place (cs : List Str) (hcs : ∀ c ∈ cs, Plain c) (hne : cs ≠ []) (key : Str) (hk : Plain key) :
    pathJoin [(render true cs).drop 1, key] = (render true cs ++ '/' :: key).drop 1 := by
  have h1 : (render true cs).drop 1 = render false cs := by
    cases cs with
    | nil => exact absurd rfl hne
    | cons c cs => simp [render]
  rw [h1, join_snoc hcs hk, slash_render hne]
  cases cs with
  | nil => exact absurd rfl hne
  | cons c cs => simp [render]

namespace Spec

/-- the name that has to be imported to get at `attr` -/
def firstName (attr : Str) : Str := attr.takeWhile (· ≠ '.')

/-- every script has a place of its own -/
def OwnPlaces (p : Platform) (cfg : Config) : Prop :=
  ∀ key val i key' val' i', Declares p cfg key val i → Declares p cfg key' val' i' →
    pathJoin [p.scheme.scripts.drop 1, key] = pathJoin [p.scheme.scripts.drop 1, key'] → val = val' ∧ i = i'

end Spec

theorem firstName_word {w : Str} (h : Spec.Word w) : Spec.firstName w = w := by
  unfold Spec.firstName
  have hd : ∀ c ∈ w, c ≠ '.' := by
    rintro c hc rfl
    have := ((word_iff w).mp h).2 _ hc
    revert this; decide
  clear h
  induction w with
  | nil => rfl
  | cons c w ih => rw [List.takeWhile_cons, if_pos (by simpa using hd c (by simp)), ih (fun c hc => hd c (List.mem_cons_of_mem _ hc))]

/-- **C52** (for functions that are named directly in their module; see `C52_violated`): if every script has a place of its own, there
is an executable file for every one that is declared, with its interpreter, and it imports and calls the function. -/
theorem C52_each_partial (env : HookEnv) (guiFirst : Bool) (order : List (Str × Str) → List (Str × Str)) (ho : ∀ l, (order l).Perm l) (plat p : Platform)
    (hp : plat.init = .ok p) (t : Int) (m m' : Map Ref) (dir : Str) (h : scriptsHook env guiFirst order plat t m dir = .ok m') (cfg : Config)
    (hcfg : Spec.EntryPoints env.decode m dir cfg) (hown : Spec.OwnPlaces p cfg) (key val i : Str) (hd : Spec.Declares p cfg key val i) :
    ∃ mod attr, Spec.FuncRef val mod attr ∧ (Spec.Word attr →
      m'.get? (pathJoin [p.scheme.scripts.drop 1, key]) =
        some (memFile t (pathJoin [p.scheme.scripts.drop 1, key]) 0o755 (enc (Spec.program i mod (Spec.firstName attr) attr)))) := by
  rcases C52_scripts env guiFirst order ho plat p hp t m m' dir h with ⟨h1, _⟩ | ⟨cfg', h1, h2⟩
  · obtain ⟨r, c, g, _⟩ := hcfg
    rw [h1] at g; cases g
  · obtain ⟨r, c, g1, g2, g3⟩ := hcfg
    obtain ⟨r', c', k1, k2, k3⟩ := h1
    rw [g1] at k1; cases k1
    rw [g2] at k2; cases k2
    rw [g3] at k3; cases k3
    rcases h2 (pathJoin [p.scheme.scripts.drop 1, key]) with ⟨key', val', i', d1, d2, mod, attr, d3, d4⟩ | ⟨d1, _⟩
    · obtain ⟨rfl, rfl⟩ := hown _ _ _ _ _ _ hd d1 d2.symm
      exact ⟨mod, attr, d3, fun hw => by rw [firstName_word hw]; exact d4⟩
    · exact absurd rfl (d1 key val i hd)

/-- **C52**: the order of the loops does not matter if every script has a place of its own. -/
theorem C52_order (env : HookEnv) (guiFirst guiFirst' : Bool) (order order' : List (Str × Str) → List (Str × Str)) (ho : ∀ l, (order l).Perm l)
    (ho' : ∀ l, (order' l).Perm l) (plat p : Platform) (hp : plat.init = .ok p) (t : Int) (m m2 : Map Ref) (hs : Map.Same m m2) (dir : Str)
    (hown : ∀ cfg, Spec.EntryPoints env.decode m dir cfg → Spec.OwnPlaces p cfg) :
    (scriptsHook env guiFirst order plat t m dir = .error () ∧ scriptsHook env guiFirst' order' plat t m2 dir = .error ()) ∨
    ∃ a a', scriptsHook env guiFirst order plat t m dir = .ok a ∧ scriptsHook env guiFirst' order' plat t m2 dir = .ok a' ∧ Map.Same a a' := by
  have herr : scriptsHook env guiFirst order plat t m dir = .error () ↔ scriptsHook env guiFirst' order' plat t m2 dir = .error () := by
    rw [C52_error env guiFirst order ho, C52_error env guiFirst' order' ho', hs]
  cases ha : scriptsHook env guiFirst order plat t m dir with
  | error e => exact Or.inl ⟨rfl, herr.mp ha⟩
  | ok a =>
    cases ha' : scriptsHook env guiFirst' order' plat t m2 dir with
    | error e => rw [herr.mpr ha'] at ha; cases ha
    | ok a' =>
      refine Or.inr ⟨a, a', rfl, rfl, ?_⟩
      rcases C52_scripts env guiFirst order ho plat p hp t m a dir ha with ⟨h1, h2⟩ | ⟨cfg, h1, h2⟩
      · rcases C52_scripts env guiFirst' order' ho' plat p hp t m2 a' dir ha' with ⟨_, g2⟩ | ⟨_, ⟨r, c, g, _⟩, _⟩
        · rw [h2, g2]; exact hs
        · rw [← hs, h1] at g; cases g
      · have hown := hown cfg h1
        obtain ⟨r, c, x1, x2, x3⟩ := h1
        rcases C52_scripts env guiFirst' order' ho' plat p hp t m2 a' dir ha' with ⟨g1, _⟩ | ⟨cfg', ⟨r', c', g1, g3, g4⟩, g2⟩
        · rw [hs, g1] at x1; cases x1
        · rw [← hs, x1] at g1; cases g1
          rw [x2] at g3; cases g3
          rw [x3] at g4; cases g4
          intro n
          rcases h2 n with ⟨key, val, i, d1, d2, mod, attr, d3, d4⟩ | ⟨d1, d2⟩
          · rcases g2 n with ⟨key', val', i', e1, e2, mod', attr', e3, e4⟩ | ⟨e1, _⟩
            · obtain ⟨rfl, rfl⟩ := hown _ _ _ _ _ _ d1 e1 (by rw [d2, e2])
              obtain ⟨rfl, rfl⟩ := funcRef_fun d3 e3
              rw [d4, e4]
            · exact absurd d2 (e1 _ _ _ d1)
          · rcases g2 n with ⟨key', val', i', e1, e2, _⟩ | ⟨_, e2⟩
            · exact absurd e2 (d1 _ _ _ e1)
            · rw [d2, e2, hs]

/-! ### Samples and counterexamples -/

/-- an installed wheel with only an entry_points.txt -/
def entryFiles (text : Str) : Map Ref :=
  [("l/x.dist-info/entry_points.txt".toList, memFile 7 "l/x.dist-info/entry_points.txt".toList 0o644 (enc text))]

/-- the declared scripts -/
def declared (p : Platform) (cfg : Config) : List (Str × Str × Str) :=
  ((getKey "console_scripts".toList cfg).getD []).map (fun e => (e.1, e.2, p.consoleShebang)) ++
  ((getKey "gui_scripts".toList cfg).getD []).map (fun e => (e.1, e.2, p.graphicalShebang))

theorem mem_declared {p : Platform} {cfg : Config} {key val i : Str} : Spec.Declares p cfg key val i ↔ (key, val, i) ∈ declared p cfg := by
  unfold declared Spec.Declares
  rw [List.mem_append]
  have one : ∀ (s j : Str), (∃ data, getKey s cfg = some data ∧ (key, val) ∈ data ∧ i = j) ↔
      (key, val, i) ∈ ((getKey s cfg).getD []).map (fun e => (e.1, e.2, j)) := by
    intro s j
    cases getKey s cfg with
    | none => simp
    | some data =>
      simp only [Option.some.injEq, exists_eq_left', Option.getD_some, List.mem_map, Prod.mk.injEq]
      constructor
      · rintro ⟨h1, h2⟩; exact ⟨_, h1, rfl, rfl, h2.symm⟩
      · rintro ⟨e, h1, rfl, rfl, rfl⟩; exact ⟨h1, rfl⟩
  rw [one, one]

theorem own_check {p : Platform} {cfg : Config} (h : ∀ e ∈ declared p cfg, ∀ e' ∈ declared p cfg,
    pathJoin [p.scheme.scripts.drop 1, e.1] = pathJoin [p.scheme.scripts.drop 1, e'.1] → e.2 = e'.2) : Spec.OwnPlaces p cfg := by
  intro key val i key' val' i' h1 h2 he
  have := h _ (mem_declared.mp h1) _ (mem_declared.mp h2) he
  exact ⟨congrArg (·.1) this, congrArg (·.2) this⟩

/-- some scripts -/
def entryText : Str := "[console_scripts]\nrun = my.pkg:main [extra]\n\n[gui_scripts]\n; comment\nwin = w:go\n[other]\nx = y\n".toList

def entryConfig : Config :=
  [("console_scripts".toList, [("run".toList, "my.pkg:main [extra]".toList)]), ("gui_scripts".toList, [("win".toList, "w:go".toList)]),
   ("other".toList, [("x".toList, "y".toList)])]

/-- the hook on a file, and what is at a place afterwards: the mode and the content -/
def scriptAt (guiFirst : Bool) (text n : Str) : Option (Option Int × Option Bytes) :=
  match scriptsHook toyHookEnv guiFirst id toyPlat 7 (entryFiles text) "l/x.dist-info".toList with
  | .ok m' => (m'.get? n).map (fun r => (r.info.map (·.mode), r.content))
  | .error _ => none

theorem scriptAt_some {guiFirst : Bool} {text n : Str} {x : Option Int × Option Bytes} (h : scriptAt guiFirst text n = some x) :
    ∃ m' r, scriptsHook toyHookEnv guiFirst id toyPlat 7 (entryFiles text) "l/x.dist-info".toList = .ok m' ∧ m'.get? n = some r ∧
      r.info.map (·.mode) = x.1 ∧ r.content = x.2 := by
  unfold scriptAt at h
  split at h
  · rename_i m' hm
    rw [Option.map_eq_some_iff] at h
    obtain ⟨r, hr, rfl⟩ := h
    exact ⟨m', r, hm, hr, rfl, rfl⟩
  · cases h

/-- the hypotheses of `C52_scripts`, `C52_each_partial` and `C52_order` are met, with two scripts that have different interpreters -/
example : (∃ m', scriptsHook toyHookEnv true id toyPlat 7 (entryFiles entryText) "l/x.dist-info".toList = .ok m') ∧ toyPlat.init = .ok toyPlat ∧
    Spec.EntryPoints toyHookEnv.decode (entryFiles entryText) "l/x.dist-info".toList entryConfig ∧ Spec.OwnPlaces toyPlat entryConfig ∧
    Spec.Declares toyPlat entryConfig "run".toList "my.pkg:main [extra]".toList "/bin/python".toList ∧
    Spec.Declares toyPlat entryConfig "win".toList "w:go".toList "/bin/pythonw".toList ∧
    Spec.FuncRef "my.pkg:main [extra]".toList "my.pkg".toList "main".toList ∧
    scriptAt true entryText "bin/run".toList = some (some 0o755, some (enc (Spec.program "/bin/python".toList "my.pkg".toList "main".toList "main".toList))) ∧
    scriptAt false entryText "bin/win".toList = some (some 0o755, some (enc (Spec.program "/bin/pythonw".toList "w".toList "go".toList "go".toList))) := by
  have hr : scriptAt true entryText "bin/run".toList =
    some (some 0o755, some (enc (Spec.program "/bin/python".toList "my.pkg".toList "main".toList "main".toList))) := by decide +kernel
  obtain ⟨m', _, h, _⟩ := scriptAt_some hr
  refine ⟨⟨m', h⟩, rfl, ⟨_, _, rfl, rfl, by decide +kernel⟩, own_check (by decide +kernel), mem_declared.mpr (by decide +kernel), mem_declared.mpr (by decide +kernel),
    (funcRef_iff _ _ _).mp (by decide +kernel), hr, by decide +kernel⟩

/-- the hypothesis of `C52_place`, for the usual directory -/
example : render true ["usr".toList, "bin".toList] = "/usr/bin".toList ∧ pathJoin [("/usr/bin".toList).drop 1, "run".toList] = "usr/bin/run".toList := by
  decide +kernel

/-- references that are errors -/
example : ∀ val ∈ ["mod".toList, "mod:".toList, "a:b:c".toList, "a..b:c".toList, ":c".toList, "a:b [x".toList, [], "a :b".toList],
    ¬ ∃ mod attr, Spec.FuncRef val mod attr := by
  intro val hv
  rw [← funcRef_error]
  revert val
  decide +kernel

/-- **C52** fails if the function is an attribute of something in the module: the program is `from m import o.f`, which is not Python. -/
theorem C52_violated : ∃ m' r c, Spec.FuncRef "m:o.f".toList "m".toList "o.f".toList ∧
    scriptsHook toyHookEnv true id toyPlat 7 (entryFiles "[console_scripts]\nrun = m:o.f\n".toList) "l/x.dist-info".toList = .ok m' ∧
    m'.get? "bin/run".toList = some r ∧ r.content = some c ∧
    c ≠ enc (Spec.program "/bin/python".toList "m".toList (Spec.firstName "o.f".toList) "o.f".toList) ∧
    c = enc ("#!/bin/python\n# -*- coding: utf-8 -*-\nimport re\nimport sys\nfrom m import o.f\nif __name__ == '__main__':\n".toList ++
      "    sys.argv[0] = re.sub(r'(-script\\.pyw|\\.exe)?$', '', sys.argv[0])\n    sys.exit(o.f())\n".toList) := by
  have hr : scriptAt true "[console_scripts]\nrun = m:o.f\n".toList "bin/run".toList =
    some (some 0o755, some (enc (Spec.program "/bin/python".toList "m".toList "o.f".toList "o.f".toList))) := by decide +kernel
  obtain ⟨m', r, h1, h2, _, h3⟩ := scriptAt_some hr
  exact ⟨m', r, _, (funcRef_iff _ _ _).mp (by decide +kernel), h1, h2, h3, by decide +kernel, by decide +kernel⟩

/-- **C52** fails if the same script is in both sections: which interpreter it gets depends on the order in which the sections are
visited. -/
theorem C52_violated_order : ∃ m1 m2 r1 r2, 
    scriptsHook toyHookEnv false id toyPlat 7 (entryFiles "[console_scripts]\nrun = m:f\n[gui_scripts]\nrun = m:f\n".toList) "l/x.dist-info".toList = .ok m1 ∧
    scriptsHook toyHookEnv true id toyPlat 7 (entryFiles "[console_scripts]\nrun = m:f\n[gui_scripts]\nrun = m:f\n".toList) "l/x.dist-info".toList = .ok m2 ∧
    m1.get? "bin/run".toList = some r1 ∧ m2.get? "bin/run".toList = some r2 ∧ r1.content ≠ r2.content := by
  have hr1 : scriptAt false "[console_scripts]\nrun = m:f\n[gui_scripts]\nrun = m:f\n".toList "bin/run".toList =
    some (some 0o755, some (enc (Spec.program "/bin/pythonw".toList "m".toList "f".toList "f".toList))) := by decide +kernel
  have hr2 : scriptAt true "[console_scripts]\nrun = m:f\n[gui_scripts]\nrun = m:f\n".toList "bin/run".toList =
    some (some 0o755, some (enc (Spec.program "/bin/python".toList "m".toList "f".toList "f".toList))) := by decide +kernel
  obtain ⟨m1, r1, h1, h2, _, h3⟩ := scriptAt_some hr1
  obtain ⟨m2, r2, g1, g2, _, g3⟩ := scriptAt_some hr2
  exact ⟨m1, m2, r1, r2, h1, g1, h2, g2, by rw [h3, g3]; decide +kernel⟩

/-- **C52** fails if the name of a script leads upwards: the file is not in the scripts directory, here "/bin". -/
theorem C52_violated_outside : ∃ m' r,
    scriptsHook toyHookEnv true id toyPlat 7 (entryFiles "[console_scripts]\n../etc/cron.d/x = m:f\n".toList) "l/x.dist-info".toList = .ok m' ∧
    m'.get? "etc/cron.d/x".toList = some r ∧ r.info.map (·.mode) = some 0o755 ∧ (entryFiles "[console_scripts]\n../etc/cron.d/x = m:f\n".toList).get? "etc/cron.d/x".toList = none := by
  have hr : scriptAt true "[console_scripts]\n../etc/cron.d/x = m:f\n".toList "etc/cron.d/x".toList =
    some (some 0o755, some (enc (Spec.program "/bin/python".toList "m".toList "f".toList "f".toList))) := by decide +kernel
  obtain ⟨m', r, h1, h2, h3, _⟩ := scriptAt_some hr
  exact ⟨m', r, h1, h2, h3, by decide +kernel⟩

end Bdist
