import Verif.Cli.Values
import Verif.Cli.PropsCobra
import Verif.Cli.PropsImage
/-! C112: from the command line to the config of the image and to the arguments of `LayerFromDir`. -/
namespace Cobra
open Go
open Spec

namespace Spec

/-- the values given for a flag, in their order -/
def given (us : List Use) (name : String) : List Str := (us.filter (fun u => u.1 == name.toList)).map (·.2)

/-- a use of a flag, spelled `--name=value` -/
def spelled (u : Use) : Str := '-' :: '-' :: u.1 ++ '=' :: u.2

end Spec

theorem given_cons (u : Use) (us : List Use) (name : String) :
    given (u :: us) name = if u.1 = name.toList then u.2 :: given us name else given us name := by
  unfold given
  by_cases h : u.1 = name.toList
  · rw [if_pos h, List.filter_cons_of_pos (by simp [h]), List.map_cons]
  · rw [if_neg h, List.filter_cons_of_neg (by simpa using h)]

theorem given_append (us us' : List Use) (name : String) : given (us ++ us') name = given us name ++ given us' name := by
  simp [given]

theorem fold_last {α : Type} (conv : α → Str → α) (name : String) (us : List Use) (d : α) :
    us.foldl (fun v u => if u.1 = name.toList then conv v u.2 else v) d = (given us name).foldl conv d := by
  induction us generalizing d with
  | nil => rfl
  | cons u us ih =>
    rw [List.foldl_cons, ih, given_cons]
    by_cases h : u.1 = name.toList
    · rw [if_pos h, if_pos h, List.foldl_cons]
    · rw [if_neg h, if_neg h]

theorem foldl_const {α : Type} (f : Str → α) (l : List Str) (d : α) :
    l.foldl (fun _ v => f v) d = (l.getLast?.map f).getD d := by
  induction l generalizing d with
  | nil => rfl
  | cons a l ih =>
    rw [List.foldl_cons, ih]
    cases l with
    | nil => rfl
    | cons b l =>
      rw [List.getLast?_cons_cons]
      cases h : (b :: l).getLast? with
      | none => simp at h
      | some x => rfl

theorem strVal_eq (us : List Use) (name dflt : String) :
    strVal us name dflt = ((given us name).getLast?).getD dflt.toList := by
  unfold strVal
  rw [fold_last (fun _ v => v), foldl_const (fun v => v)]
  simp

theorem boolVal_eq (us : List Use) (name : String) :
    boolVal us name = ((given us name).getLast?).any (trues.contains ·) := by
  unfold boolVal
  rw [fold_last (fun _ v => trues.contains v), foldl_const (fun v => trues.contains v)]
  cases (given us name).getLast? <;> rfl

theorem arrVal_eq (us : List Use) (name : String) : arrVal us name = Cli.nilIfEmpty (given us name) := by
  unfold arrVal
  rw [fold_last (fun v x => some (v.getD [] ++ [x]))]
  have key : ∀ (l a : List Str), l.foldl (fun v x => some ((v : Option (List Str)).getD [] ++ [x])) (some a)
      = some (a ++ l) := by
    intro l
    induction l with
    | nil => intro a; simp
    | cons x l ih => intro a; rw [List.foldl_cons, Option.getD_some, ih]; simp
  cases h : given us name with
  | nil => rfl
  | cons a l => rw [List.foldl_cons, key]; simp [Cli.nilIfEmpty]

theorem intVal_last (parseInt : Str → Option Int) (us : List Use) (name : String) (d : Int) {l : List Str} {s : Str}
    {z : Int} (h : given us name = l ++ [s]) (hz : parseInt s = some z) : intVal parseInt us name d = z := by
  unfold intVal
  rw [fold_last (fun v x => (parseInt x).getD v), h, List.foldl_append, List.foldl_cons, List.foldl_nil, hz]
  rfl

/-- **C112** (`image build`).  For every command line that the grammar reads as uses of flags `us` and operands `as`
(at least one, no help asked for), in whatever order and spelling the flags are: the command is run; and for every
config `c` of the base, the config of the image is `c` with: the environment of `c`, or nothing if the last use of
`--config.Env.clear` says so, followed by the values of all `--config.Env.append`, unchanged and in order; the
values of `--config.Entrypoint` and of `--config.Cmd`, if there are any, instead of those of `c`; the value of the
last `--config.WorkingDir`, unless it is empty or absent, instead of that of `c`. -/
theorem C112_build (isInt : Str → Bool) (exec : Cmd → List Use → List Str → Bool) {l : List Str} {us : List Use}
    {as : List Str} (h : Proper isInt .build l us as) {α : Type} (c : Cli.ImgConfig α) :
    (process isInt exec ("image".toList :: "build".toList :: l)).ran = some (.build, us, as)
    ∧ let r := Cli.buildConfig (configOf us) c
      r.others = c.others
      ∧ r.env.getD [] = (if ((given us "config.Env.clear").getLast?).any (· ∈ trues) then [] else c.env.getD [])
          ++ given us "config.Env.append"
      ∧ r.entrypoint.getD [] = (if given us "config.Entrypoint" = [] then c.entrypoint.getD []
          else given us "config.Entrypoint")
      ∧ r.cmd.getD [] = (if given us "config.Cmd" = [] then c.cmd.getD [] else given us "config.Cmd")
      ∧ r.workingDir = (match (given us "config.WorkingDir").getLast? with
          | none => c.workingDir
          | some [] => c.workingDir
          | some (x :: w) => x :: w) := by
  constructor
  · have := (C111_lines_partial isInt exec .build _ rfl l).1 us as h
      (fun f hf hr => absurd hr (by revert f; decide +kernel))
    rw [show "image".toList :: "build".toList :: l = ["image".toList, "build".toList] ++ l from rfl, this]
  · obtain ⟨h1, h2, h3, h4, h5⟩ := Cli.C79_config (configOf us) c
    refine ⟨h1, ?_, ?_, ?_, ?_⟩
    · have := h5
      unfold Cli.elems at this
      rw [this]
      simp only [configOf, boolVal_eq, arrVal_eq]
      congr 1
      · simp [List.contains_eq_mem]
      · unfold Cli.nilIfEmpty; split <;> simp_all
    · rw [h2]
      simp only [configOf, arrVal_eq, Cli.nilIfEmpty]
      by_cases hg : given us "config.Entrypoint" = [] <;> simp [hg]
    · rw [h3]
      simp only [configOf, arrVal_eq, Cli.nilIfEmpty]
      by_cases hg : given us "config.Cmd" = [] <;> simp [hg]
    · rw [h4]
      simp only [configOf, strVal_eq]
      cases hg : (given us "config.WorkingDir").getLast? with
      | none => simp
      | some w => cases w <;> simp

/-- uses spelled `--name=value`, then `--` and the operands -/
theorem line_spelled (isInt : Str → Bool) (fs : List Flag) (us : List Use) (as : List Str)
    (h : ∀ u ∈ us, ∃ f ∈ fs, f.name = u.1 ∧ accepts isInt f.kind u.2 = true) :
    Line isInt fs (us.map spelled ++ "--".toList :: as) us as := by
  induction us with
  | nil => exact .dashes as
  | cons u us ih =>
    obtain ⟨f, hf, hn, ha⟩ := h u List.mem_cons_self
    have := Line.longEq f u.2 _ us as hf ha (ih fun u hu => h u (List.mem_cons_of_mem _ hu))
    rw [hn] at this
    exact this

theorem given_nil (name : String) : given [] name = [] := rfl

theorem given_map (n m : String) (l : List Str) :
    given (l.map fun v => (n.toList, v)) m = if n.toList = m.toList then l else [] := by
  induction l with
  | nil => simp [given]
  | cons a l ih =>
    rw [List.map_cons, given_cons, ih]
    by_cases h : n.toList = m.toList
    · rw [if_pos h, if_pos h, if_pos h]
    · rw [if_neg h, if_neg h, if_neg h]

theorem not_help_of {us : List Use} (h : ∀ u ∈ us, u.1 ≠ "help".toList) : ¬ Help us := by
  rintro ⟨us₁, v, us₂, rfl, _, _⟩
  exact h ("help".toList, v) (by simp) rfl

/-- the uses of flags that ask for a config, a base image and a tag -/
def buildUses (base tag : Str) (clear : Bool) (env ep cm : List Str) (wd : Str) : List Use :=
  [("base".toList, base), ("tag".toList, tag), ("config.Env.clear".toList, if clear then "true".toList else "false".toList)]
  ++ env.map (fun v => ("config.Env.append".toList, v)) ++ ep.map (fun v => ("config.Entrypoint".toList, v))
  ++ cm.map (fun v => ("config.Cmd".toList, v)) ++ [("config.WorkingDir".toList, wd)]

theorem given_one (n m : String) (v : Str) : given [(n.toList, v)] m = if n.toList = m.toList then [v] else [] :=
  given_map n m [v]

theorem given_buildUses (base tag : Str) (clear : Bool) (env ep cm : List Str) (wd : Str) (name : String) :
    given (buildUses base tag clear env ep cm wd) name
      = given [("base".toList, base), ("tag".toList, tag),
          ("config.Env.clear".toList, if clear then "true".toList else "false".toList)] name
        ++ (if "config.Env.append".toList = name.toList then env else [])
        ++ (if "config.Entrypoint".toList = name.toList then ep else [])
        ++ (if "config.Cmd".toList = name.toList then cm else [])
        ++ (if "config.WorkingDir".toList = name.toList then [wd] else []) := by
  unfold buildUses
  rw [given_append, given_append, given_append, given_append, given_map, given_map, given_map,
    given_one]

theorem configOf_buildUses (base tag : Str) (clear : Bool) (env ep cm : List Str) (wd : Str) :
    strVal (buildUses base tag clear env ep cm wd) "base" "" = base
    ∧ strVal (buildUses base tag clear env ep cm wd) "tag" "" = tag
    ∧ configOf (buildUses base tag clear env ep cm wd)
      = ⟨clear, Cli.nilIfEmpty env, Cli.nilIfEmpty ep, Cli.nilIfEmpty cm, wd⟩ := by
  have h1 : given (buildUses base tag clear env ep cm wd) "base" = [base] := by
    rw [given_buildUses]; rfl
  have h2 : given (buildUses base tag clear env ep cm wd) "tag" = [tag] := by
    rw [given_buildUses]; rfl
  have h3 : given (buildUses base tag clear env ep cm wd) "config.Env.clear"
      = [if clear then "true".toList else "false".toList] := by
    rw [given_buildUses]; rfl
  have h4 : given (buildUses base tag clear env ep cm wd) "config.Env.append" = env := by
    rw [given_buildUses]
    exact ((List.append_nil _).trans ((List.append_nil _).trans (List.append_nil _)))
  have h5 : given (buildUses base tag clear env ep cm wd) "config.Entrypoint" = ep := by
    rw [given_buildUses]
    exact ((List.append_nil _).trans (List.append_nil _))
  have h6 : given (buildUses base tag clear env ep cm wd) "config.Cmd" = cm := by
    rw [given_buildUses]
    exact List.append_nil _
  have h7 : given (buildUses base tag clear env ep cm wd) "config.WorkingDir" = [wd] := by
    rw [given_buildUses]; rfl
  refine ⟨by rw [strVal_eq, h1]; rfl, by rw [strVal_eq, h2]; rfl, ?_⟩
  unfold configOf
  rw [strVal_eq, boolVal_eq, arrVal_eq, arrVal_eq, arrVal_eq, h3, h4, h5, h6, h7]
  cases clear <;> rfl

/-- **C112** (everything can be said, `image build`).  For every base, tag, environment, entrypoint, command, working
directory and layers, whatever characters they consist of, there is a command line that is read as exactly these. -/
theorem C112_build_expressible (isInt : Str → Bool) (exec : Cmd → List Use → List Str → Bool) (base tag : Str)
    (clear : Bool) (env ep cm : List Str) (wd : Str) (layers : List Str) (hl : layers ≠ []) :
    ∃ line us, (process isInt exec line).ran = some (.build, us, layers)
      ∧ strVal us "base" "" = base ∧ strVal us "tag" "" = tag
      ∧ configOf us = ⟨clear, Cli.nilIfEmpty env, Cli.nilIfEmpty ep, Cli.nilIfEmpty cm, wd⟩ := by
  have hp : Proper isInt .build ((buildUses base tag clear env ep cm wd).map spelled ++ "--".toList :: layers)
      (buildUses base tag clear env ep cm wd) layers := by
    refine ⟨line_spelled _ _ _ _ ?_, not_help_of ?_, ?_⟩
    · intro u hu
      simp only [buildUses, List.mem_append, List.mem_cons, List.not_mem_nil, or_false, List.mem_map] at hu
      rcases hu with (((((rfl | rfl | rfl) | ⟨v, _, rfl⟩) | ⟨v, _, rfl⟩) | ⟨v, _, rfl⟩) | rfl)
      · exact ⟨mk "base" none .str, by decide +kernel, rfl, rfl⟩
      · exact ⟨mk "tag" (some 't') .str, by decide +kernel, rfl, rfl⟩
      · exact ⟨mk "config.Env.clear" (some 'E') .bool, by decide +kernel, rfl, by cases clear <;> rfl⟩
      · exact ⟨mk "config.Env.append" (some 'e') .array, by decide +kernel, rfl, rfl⟩
      · exact ⟨mk "config.Entrypoint" none .array, by decide +kernel, rfl, rfl⟩
      · exact ⟨mk "config.Cmd" (some 'c') .array, by decide +kernel, rfl, rfl⟩
      · exact ⟨mk "config.WorkingDir" (some 'w') .str, by decide +kernel, rfl, rfl⟩
    · intro u hu
      simp only [buildUses, List.mem_append, List.mem_cons, List.not_mem_nil, or_false, List.mem_map] at hu
      rcases hu with (((((rfl | rfl | rfl) | ⟨v, _, rfl⟩) | ⟨v, _, rfl⟩) | ⟨v, _, rfl⟩) | rfl)
        <;> (intro e; revert e; simp)
    · exact List.length_pos_iff.mpr hl
  exact ⟨_, _, (C112_build isInt exec hp (⟨none, none, none, [], ()⟩ : Cli.ImgConfig Unit)).1,
    configOf_buildUses base tag clear env ep cm wd⟩

/-- a command line that meets the hypothesis of `C112_build` -/
example : Proper (fun _ => true) .build ["-e".toList, "A=1,2".toList, "l.tar".toList, "--config.Cmd".toList, "-x".toList, "-E".toList]
    [("config.Env.append".toList, "A=1,2".toList), ("config.Cmd".toList, "-x".toList),
      ("config.Env.clear".toList, "true".toList)] ["l.tar".toList] :=
  ⟨(parse_iff _ _ _ _ _).mp (by decide +kernel), not_help_of (by decide +kernel), by simp [operands]⟩

/-- the uses of flags that ask for a prefix and an ownership; the numbers are strings here -/
def dirUses (p : Str) (uid : Str) (uname : Str) (gid : Str) (gname : Str) (cuid : Str) (cuname : Str) (cgid : Str)
    (cgname : Str) : List Use :=
  [("prefix".toList, p), ("prefix-uid".toList, uid), ("prefix-uname".toList, uname), ("prefix-gid".toList, gid),
   ("prefix-gname".toList, gname), ("chown-uid".toList, cuid), ("chown-uname".toList, cuname),
   ("chown-gid".toList, cgid), ("chown-gname".toList, cgname)]

/-- **C112** (everything can be said, `layer dir`).  For every directory `d`, prefix `p` (or none) and ownership `o`,
the numbers written as `ParseInt` reads them, there is a command line with which `LayerFromDir` is called for `d`,
`p` and `o`.  Without flags it is called without prefix and with the ownership that leaves all but the name of the
group. -/
theorem C112_dir_expressible (parseInt : Str → Option Int) (exec : Cmd → List Use → List Str → Bool)
    (d : Str) (pre : Option Fsutil.Prefix) (o : Fsutil.Ownership)
    (hn : ∀ p, pre = some p → p.dirName ≠ [] ∧ p.mode = 0)
    (hz : ∀ z : Int, z = o.uid ∨ z = o.gid ∨ z = 0 ∨ (∃ p, pre = some p ∧ (z = p.owner.uid ∨ z = p.owner.gid)) →
      ∃ s, parseInt s = some z) :
    (∃ line us, (process (fun s => (parseInt s).isSome) exec line).ran = some (.dir, us, [d])
      ∧ dirOf parseInt us = (pre, o))
    ∧ (process (fun s => (parseInt s).isSome) exec ["layer".toList, "dir".toList, "--".toList, d]).ran
        = some (.dir, [], [d])
    ∧ dirOf parseInt [] = (none, ⟨-1, [], -1, "root".toList⟩) := by
  have run : ∀ us : List Use, (∀ u ∈ us, ∃ f ∈ flags .dir, f.name = u.1 ∧
      accepts (fun s => (parseInt s).isSome) f.kind u.2 = true) → (∀ u ∈ us, u.1 ≠ "help".toList) →
      (process (fun s => (parseInt s).isSome) exec
        (["layer".toList, "dir".toList] ++ (us.map spelled ++ ["--".toList, d]))).ran = some (.dir, us, [d]) := by
    intro us hu hh
    rw [(C111_lines_partial _ exec .dir _ rfl (us.map spelled ++ ["--".toList, d])).1 us [d]
      ⟨line_spelled _ _ us [d] hu, not_help_of hh, rfl⟩ (fun f hf hr => absurd hr (by revert f; decide +kernel))]
  refine ⟨?_, run [] (fun u hu => (nomatch hu)) (fun u hu => (nomatch hu)), rfl⟩
  obtain ⟨sou, hou⟩ := hz o.uid (.inl rfl)
  obtain ⟨sog, hog⟩ := hz o.gid (.inr (.inl rfl))
  have go : ∀ (p : Str) (spu spg : Str) (pu pg : Int) (pun pgn : Str), parseInt spu = some pu →
      parseInt spg = some pg → ∃ line us,
        (process (fun s => (parseInt s).isSome) exec line).ran = some (.dir, us, [d])
        ∧ dirOf parseInt us = (if p ≠ [] then some ⟨p, 0, ⟨pu, pun, pg, pgn⟩⟩ else none, o) := by
    intro p spu spg pu pg pun pgn hpu hpg
    refine ⟨_, dirUses p spu pun spg pgn sou o.uname sog o.gname, run _ ?_ ?_, ?_⟩
    · intro u hu
      simp only [dirUses, List.mem_cons, List.not_mem_nil, or_false] at hu
      rcases hu with rfl | rfl | rfl | rfl | rfl | rfl | rfl | rfl | rfl
      · exact ⟨mk "prefix" none .str, by decide +kernel, rfl, rfl⟩
      · exact ⟨mk "prefix-uid" none .int, by decide +kernel, rfl, by simp [accepts, mk, hpu]⟩
      · exact ⟨mk "prefix-uname" none .str, by decide +kernel, rfl, rfl⟩
      · exact ⟨mk "prefix-gid" none .int, by decide +kernel, rfl, by simp [accepts, mk, hpg]⟩
      · exact ⟨mk "prefix-gname" none .str, by decide +kernel, rfl, rfl⟩
      · exact ⟨mk "chown-uid" none .int, by decide +kernel, rfl, by simp [accepts, mk, hou]⟩
      · exact ⟨mk "chown-uname" none .str, by decide +kernel, rfl, rfl⟩
      · exact ⟨mk "chown-gid" none .int, by decide +kernel, rfl, by simp [accepts, mk, hog]⟩
      · exact ⟨mk "chown-gname" none .str, by decide +kernel, rfl, rfl⟩
    · intro u hu
      simp only [dirUses, List.mem_cons, List.not_mem_nil, or_false] at hu
      rcases hu with rfl | rfl | rfl | rfl | rfl | rfl | rfl | rfl | rfl <;> (intro e; revert e; simp)
    · have g : ∀ (n : String) (dflt : String) (v : Str), given (dirUses p spu pun spg pgn sou o.uname sog o.gname) n = [v] →
          strVal (dirUses p spu pun spg pgn sou o.uname sog o.gname) n dflt = v := by
        intro n dflt v h; rw [strVal_eq, h]; rfl
      unfold dirOf
      rw [g "prefix" "" p rfl, g "prefix-uname" "root" pun rfl, g "prefix-gname" "root" pgn rfl,
        g "chown-uname" "" o.uname rfl, g "chown-gname" "root" o.gname rfl,
        intVal_last parseInt _ "prefix-uid" 0 (l := []) (s := spu) rfl hpu,
        intVal_last parseInt _ "prefix-gid" 0 (l := []) (s := spg) rfl hpg,
        intVal_last parseInt _ "chown-uid" (-1) (l := []) (s := sou) rfl hou,
        intVal_last parseInt _ "chown-gid" (-1) (l := []) (s := sog) rfl hog]
  cases pre with
  | none =>
    obtain ⟨s0, h0⟩ := hz 0 (.inr (.inr (.inl rfl)))
    exact go [] s0 s0 0 0 [] [] h0 h0
  | some p =>
    obtain ⟨spu, hpu⟩ := hz p.owner.uid (.inr (.inr (.inr ⟨p, rfl, .inl rfl⟩)))
    obtain ⟨spg, hpg⟩ := hz p.owner.gid (.inr (.inr (.inr ⟨p, rfl, .inr rfl⟩)))
    obtain ⟨h1, h2⟩ := hn p rfl
    have := go p.dirName spu spg p.owner.uid p.owner.gid p.owner.uname p.owner.gname hpu hpg
    rw [if_pos h1] at this
    obtain ⟨dn, mode, owner⟩ := p
    obtain rfl : mode = 0 := h2
    exact this

/-- the hypotheses of `C112_dir_expressible` can be met, with decimal numbers -/
example : (∀ p, some (⟨"usr/bin".toList, 0, ⟨1, [], 2, []⟩⟩ : Fsutil.Prefix) = some p → p.dirName ≠ [] ∧ p.mode = 0)
    ∧ ∀ z : Int, z = 5 ∨ z = -1 ∨ z = 0 ∨
      (∃ p, some (⟨"usr/bin".toList, 0, ⟨1, [], 2, []⟩⟩ : Fsutil.Prefix) = some p ∧ (z = p.owner.uid ∨ z = p.owner.gid)) →
      ∃ s, atoi s = some z := by
  refine ⟨fun p hp => ?_, ?_⟩
  · obtain rfl := Option.some.inj hp
    exact ⟨by decide, rfl⟩
  · rintro z (rfl | rfl | rfl | ⟨p, hp, h⟩)
    · exact ⟨"5".toList, by decide +kernel⟩
    · exact ⟨"-1".toList, by decide +kernel⟩
    · exact ⟨"0".toList, by decide +kernel⟩
    · obtain rfl := Option.some.inj hp
      rcases h with rfl | rfl
      · exact ⟨"1".toList, by decide +kernel⟩
      · exact ⟨"2".toList, by decide +kernel⟩

/-- **C112** (switches).  `ocibuild image build --config.Env.clear=v -- layers`, for every `v`: the command is run
exactly if `v` is one of the twelve spellings of true and false, otherwise the status is 2; and when it is run, the
environment of the base is cleared exactly if `v` is one of the six of true. -/
theorem C112_switch (isInt : Str → Bool) (exec : Cmd → List Use → List Str → Bool) (v : Str) (layers : List Str)
    (hl : layers ≠ []) :
    ((v ∈ ["1", "t", "T", "TRUE", "true", "True", "0", "f", "F", "FALSE", "false", "False"].map String.toList ∧
        ∃ us, (process isInt exec ("image".toList :: "build".toList :: ("--config.Env.clear=".toList ++ v) :: "--".toList
          :: layers)).ran = some (.build, us, layers)
        ∧ ((configOf us).envClear = true ↔ v ∈ ["1", "t", "T", "TRUE", "true", "True"].map String.toList))
      ∨ (v ∉ ["1", "t", "T", "TRUE", "true", "True", "0", "f", "F", "FALSE", "false", "False"].map String.toList ∧
        process isInt exec ("image".toList :: "build".toList :: ("--config.Env.clear=".toList ++ v) :: "--".toList
          :: layers) = ⟨2, none⟩)) := by
  have hm : v ∈ ["1", "t", "T", "TRUE", "true", "True", "0", "f", "F", "FALSE", "false", "False"].map String.toList
      ↔ accepts isInt .bool v = true := by
    rw [show ["1", "t", "T", "TRUE", "true", "True", "0", "f", "F", "FALSE", "false", "False"].map String.toList
      = trues ++ falses from rfl, accepts, List.mem_append]
    simp [List.contains_eq_mem]
  have e : "image".toList :: "build".toList :: ("--config.Env.clear=".toList ++ v) :: "--".toList :: layers
      = ["image".toList, "build".toList] ++ (("--config.Env.clear=".toList ++ v) :: "--".toList :: layers) := rfl
  have hf : mk "config.Env.clear" (some 'E') .bool ∈ flags .build := by decide +kernel
  rw [e]
  by_cases h : v ∈ ["1", "t", "T", "TRUE", "true", "True", "0", "f", "F", "FALSE", "false", "False"].map String.toList
  · refine .inl ⟨h, [("config.Env.clear".toList, v)], ?_, ?_⟩
    · rw [show ("--config.Env.clear=".toList ++ v) :: "--".toList :: layers
        = [("config.Env.clear".toList, v)].map spelled ++ "--".toList :: layers from rfl,
        (C111_lines_partial isInt exec .build _ rfl _).1 [("config.Env.clear".toList, v)] layers
        ⟨line_spelled isInt (flags .build) [("config.Env.clear".toList, v)] layers (fun u hu => by
          rw [List.mem_singleton] at hu
          subst hu
          exact ⟨_, hf, rfl, hm.mp h⟩), not_help_of (fun u hu => by
            rw [List.mem_singleton] at hu
            subst hu
            simp), List.length_pos_iff.mpr hl⟩
        (fun f hf hr => absurd hr (by revert f; decide +kernel))]
    · show boolVal _ _ = true ↔ _
      rw [boolVal_eq, given_one, if_pos rfl]
      simp only [List.getLast?_singleton, Option.any_some, List.contains_eq_mem, decide_eq_true_eq]
      exact Iff.rfl
  · refine .inr ⟨h, ?_⟩
    rw [process_words (c := .build) rfl]
    have hp : parse isInt (flags .build) (("--config.Env.clear=".toList ++ v) :: "--".toList :: layers) = none := by
      have hlong : long isInt (flags .build) ("config.Env.clear".toList ++ '=' :: v) = none := by
        have := long_eq (isInt := isInt) (good_flags .build) hf v
        rw [show (mk "config.Env.clear" (some 'E') .bool).name = "config.Env.clear".toList from rfl] at this
        rw [this]
        exact if_neg (fun e => h (hm.mpr e))
      rw [parse.eq_def]
      simp only
      rw [if_neg (by simp), if_neg (by simp), if_pos (by simp)]
      rw [show ("--config.Env.clear=".toList ++ v).tail.tail = "config.Env.clear".toList ++ '=' :: v from rfl, hlong]
    rw [hp]

/-- some spelling is accepted, and some is not -/
example : "T".toList ∈ ["1", "t", "T", "TRUE", "true", "True"].map String.toList
    ∧ "yes".toList ∉ ["1", "t", "T", "TRUE", "true", "True", "0", "f", "F", "FALSE", "false", "False"].map String.toList := by
  decide +kernel

/-- **C112** (everything can be said, the other commands).  For every file name or URL `v`, whatever characters it
consists of, and all operands, of a number that the command takes: there is a command line that is read as the value
`v` of the flag `--output` of `layer gobuild`, `--platform-file` of `layer wheel`, `--index-server` of `python
getwheel`, `--interpreter` or `--imagefile` of `python inspect`, and these operands. -/
theorem C112_others_expressible (isInt : Str → Bool) (exec : Cmd → List Use → List Str → Bool) (v : Str) (as : List Str)
    (c : Cmd) (name dflt : String)
    (hc : (c = .gobuild ∧ name = "output") ∨ (c = .wheel ∧ name = "platform-file")
      ∨ (c = .getwheel ∧ name = "index-server") ∨ (c = .inspect ∧ (name = "interpreter" ∨ name = "imagefile")))
    (ha : operands c as.length) :
    ∃ line us, (process isInt exec line).ran = some (c, us, as) ∧ strVal us name dflt = v := by
  have go : ∀ (ws : List Str) (n : String) (f : Flag), words c = some ws → f ∈ flags c → f.name = n.toList →
      f.kind = .str → n.toList ≠ "help".toList → HasRequired c [(n.toList, v)] →
      ∃ line us, (process isInt exec line).ran = some (c, us, as) ∧ strVal us n dflt = v := by
    intro ws n f hw hf hn hk hh hr
    refine ⟨ws ++ ([(n.toList, v)].map spelled ++ "--".toList :: as), [(n.toList, v)], ?_, ?_⟩
    · rw [(C111_lines_partial isInt exec c ws hw _).1 [(n.toList, v)] as
        ⟨line_spelled isInt (flags c) [(n.toList, v)] as (fun u hu => by
          rw [List.mem_singleton] at hu
          subst hu
          exact ⟨f, hf, hn, by rw [hk]; rfl⟩), not_help_of (fun u hu => by
            rw [List.mem_singleton] at hu
            subst hu
            exact hh), ha⟩ hr]
    · rw [strVal_eq, given_one, if_pos rfl]; rfl
  rcases hc with ⟨rfl, rfl⟩ | ⟨rfl, rfl⟩ | ⟨rfl, rfl⟩ | ⟨rfl, rfl | rfl⟩
  · exact go _ "output" (mk "output" (some 'o') .str) rfl (by decide +kernel) rfl rfl (by decide +kernel)
      (fun f hf hr => absurd hr (by revert f; decide +kernel))
  · refine go _ "platform-file" { mk "platform-file" none .str with required := true } rfl (by decide +kernel) rfl rfl
      (by decide +kernel) (fun f hf hr => ?_)
    exact (missing_iff .wheel _).mp rfl f hf hr
  · exact go _ "index-server" (mk "index-server" none .str) rfl (by decide +kernel) rfl rfl (by decide +kernel)
      (fun f hf hr => absurd hr (by revert f; decide +kernel))
  · exact go _ "interpreter" (mk "interpreter" none .str) rfl (by decide +kernel) rfl rfl (by decide +kernel)
      (fun f hf hr => absurd hr (by revert f; decide +kernel))
  · exact go _ "imagefile" (mk "imagefile" none .str) rfl (by decide +kernel) rfl rfl (by decide +kernel)
      (fun f hf hr => absurd hr (by revert f; decide +kernel))

/-- numbers of operands that the commands take -/
example : operands .gobuild ["./...".toList].length ∧ operands .wheel ["x.whl".toList].length
    ∧ operands .getwheel ["x.whl".toList].length ∧ operands .inspect ([] : List Str).length := by
  simp [operands]

end Cobra
