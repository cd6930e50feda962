import Verif.Python.ImageOnce
/-! C123: an `ImageFS` that goroutines share is initialized once. -/
namespace Python.Once
open Go Squash

variable {n : Nat} {config : Except Unit (Option (Str × List Str)) → Prop} {layers : Except Unit (List (List Entry)) → Prop}

/-- what the fields stand for, once they are complete -/
def Fields.says (v : Fields) : Option Seen :=
  match v.err with
  | some e => some (.error e)
  | none => v.fs.map fun S => .ok (v.wd, v.path, S)

/-- the fields are those of an image that answers as the one at hand did -/
def Final (n : Nat) (config : Except Unit (Option (Str × List Str)) → Prop) (layers : Except Unit (List (List Entry)) → Prop) (v : Fields) : Prop :=
  ∃ img : OciImage, config img.config ∧ ((∃ c, img.config = .ok c) → layers img.layers) ∧ imageInit n img = v.says ∧ v.says ≠ none

/-- whatever the image answers, the code ends in fields that are final, with at most one question of each kind -/
def Safe (n : Nat) (config : Except Unit (Option (Str × List Str)) → Prop) (layers : Except Unit (List (List Entry)) → Prop) :
    Code → Fields → Prop
  | .done, v => Final n config layers v ∧ v.configs ≤ 1 ∧ v.layers ≤ 1
  | .setErr e k, v => (v.configs ≤ 1 ∧ v.layers ≤ 1) ∧ Safe n config layers k { v with err := e }
  | .setWd x k, v => (v.configs ≤ 1 ∧ v.layers ≤ 1) ∧ Safe n config layers k { v with wd := x }
  | .getWd k, v => (v.configs ≤ 1 ∧ v.layers ≤ 1) ∧ Safe n config layers (k v.wd) v
  | .setPath x k, v => (v.configs ≤ 1 ∧ v.layers ≤ 1) ∧ Safe n config layers k { v with path := x }
  | .setFs S k, v => (v.configs ≤ 1 ∧ v.layers ≤ 1) ∧ Safe n config layers k { v with fs := some S }
  | .askConfig k, v => (v.configs ≤ 1 ∧ v.layers ≤ 1) ∧ ∀ c, config c → Safe n config layers (k c) { v with configs := v.configs + 1 }
  | .askLayers k, v => (v.configs ≤ 1 ∧ v.layers ≤ 1) ∧ ∀ l, layers l → Safe n config layers (k l) { v with layers := v.layers + 1 }
  | .load ls k, v => (v.configs ≤ 1 ∧ v.layers ≤ 1) ∧ ∀ r, loadLayers n ls true = some r → Safe n config layers (k r) v

theorem Safe.asked {k : Code} {v : Fields} (h : Safe n config layers k v) : v.configs ≤ 1 ∧ v.layers ≤ 1 := by
  cases k <;> first | exact h.1 | exact h.2

theorem Safe.next {k k' : Code} {v v' : Fields} (h : Safe n config layers k v) (ha : Access n config layers k v k' v') :
    Safe n config layers k' v' := by
  cases ha with
  | setErr => exact h.2
  | setWd => exact h.2
  | getWd => exact h.2
  | setPath => exact h.2
  | setFs => exact h.2
  | askConfig _ _ c hc => exact h.2 c hc
  | askLayers _ _ l hl => exact h.2 l hl
  | load _ _ _ r hr => exact h.2 r hr

/-- the part behind the config -/
theorem layers_safe {c : Option (Str × List Str)} (hc : config (.ok c)) (wd : Str) (path : List Str)
    (hwd : wd = match c with
      | some (w, _) => if w ≠ [] then (if !hasPrefix w ['/'] then '/' :: w else w) else ['/']
      | none => ['/'])
    (hpath : path = match c with
      | some (_, env) => (match lookupEnv env "PATH".toList with
        | some p => splitList p
        | none => [])
      | none => []) : Safe n config layers layersCode ⟨none, wd, path, none, 1, 0⟩ := by
  refine ⟨⟨Nat.le_refl _, Nat.zero_le _⟩, ?_⟩
  intro l hl
  cases l with
  | error e =>
    refine ⟨⟨Nat.le_refl _, Nat.le_refl _⟩, ⟨⟨.ok c, .error e⟩, hc, fun _ => hl, rfl, by simp [Fields.says]⟩, Nat.le_refl _, Nat.le_refl _⟩
  | ok ls =>
    refine ⟨⟨Nat.le_refl _, Nat.le_refl _⟩, ?_⟩
    intro r hr
    cases r with
    | error e =>
      refine ⟨⟨Nat.le_refl _, Nat.le_refl _⟩, ⟨⟨.ok c, .ok ls⟩, hc, fun _ => hl, ?_, by simp [Fields.says]⟩, Nat.le_refl _, Nat.le_refl _⟩
      simp [imageInit, hr, Res.bind, Fields.says]
    | ok S =>
      refine ⟨⟨Nat.le_refl _, Nat.le_refl _⟩, ⟨Nat.le_refl _, Nat.le_refl _⟩, ⟨⟨.ok c, .ok ls⟩, hc, fun _ => hl, ?_, by simp [Fields.says]⟩, Nat.le_refl _, Nat.le_refl _⟩
      subst hwd hpath
      rcases c with _ | ⟨w, env⟩
      · simp [imageInit, hr, Res.bind, Fields.says]
      · simp [imageInit, hr, Res.bind, Fields.says]
        cases lookupEnv env ['P', 'A', 'T', 'H'] <;> rfl

theorem init_safe : Safe n config layers initCode ⟨none, [], [], none, 0, 0⟩ := by
  refine ⟨⟨Nat.zero_le _, Nat.zero_le _⟩, ⟨Nat.zero_le _, Nat.zero_le _⟩, ⟨Nat.zero_le _, Nat.zero_le _⟩, ?_⟩
  intro c hc
  cases c with
  | error e =>
    exact ⟨⟨Nat.le_refl _, Nat.zero_le _⟩, ⟨⟨.error e, .error e⟩, hc, fun ⟨_, h⟩ => (by cases h), rfl, by simp [Fields.says]⟩, Nat.le_refl _, Nat.zero_le _⟩
  | ok c =>
    cases c with
    | none => exact layers_safe hc _ _ rfl rfl
    | some c =>
      obtain ⟨w, env⟩ := c
      have path : ∀ wd, (wd = if w ≠ [] then (if !hasPrefix w ['/'] then '/' :: w else w) else ['/']) →
          Safe n config layers (pathCode env) ⟨none, wd, [], none, 1, 0⟩ := by
        intro wd hwd
        unfold pathCode
        split
        · rename_i p hp
          exact ⟨⟨Nat.le_refl _, Nat.zero_le _⟩, layers_safe hc _ _ hwd (by simp only [hp])⟩
        · rename_i hp
          exact layers_safe hc _ _ hwd (by simp only [hp])
      simp only
      by_cases hw : w = []
      · rw [if_neg (by simp [hw])]
        exact path _ (by simp [hw])
      · rw [if_pos hw]
        refine ⟨⟨Nat.le_refl _, Nat.zero_le _⟩, ⟨Nat.le_refl _, Nat.zero_le _⟩, ?_⟩
        simp only
        by_cases hp : hasPrefix w ['/'] = true
        · rw [if_neg (by simp [hp])]
          exact path _ (by simp [hw, hp])
        · rw [if_pos (by simp [hp])]
          refine ⟨⟨Nat.le_refl _, Nat.zero_le _⟩, ⟨Nat.le_refl _, Nat.zero_le _⟩, ?_⟩
          exact path _ (by simp [hw, hp])

/-- inside the critical section -/
def inside : Pc → Prop
  | .check | .run _ | .set | .unlock => True
  | _ => False

/-- what is true of the fields when a goroutine is at `p` -/
def PcInv (n : Nat) (config : Except Unit (Option (Str × List Str)) → Prop) (layers : Except Unit (List (List Entry)) → Prop)
    (flag : Bool) (v : Fields) : Pc → Prop
  | .start | .lock | .check => True
  | .run k => flag = false ∧ Safe n config layers k v
  | .set => flag = false ∧ Final n config layers v ∧ v.configs ≤ 1 ∧ v.layers ≤ 1
  | .unlock | .readErr => flag = true
  | .readWd => flag = true ∧ v.err = none
  | .readPath wd => flag = true ∧ v.err = none ∧ wd = v.wd
  | .readFs wd path => flag = true ∧ v.err = none ∧ wd = v.wd ∧ path = v.path
  | .done r => flag = true ∧ r = v.says

structure Inv (n : Nat) (config : Except Unit (Option (Str × List Str)) → Prop) (layers : Except Unit (List (List Entry)) → Prop)
    (st : State) : Prop where
  owner : ∀ g, inside (st.pc g) ↔ st.owner = some g
  pcs : ∀ g, PcInv n config layers st.flag st.fields (st.pc g)
  final : st.flag = true → Final n config layers st.fields
  asked : st.fields.configs ≤ 1 ∧ st.fields.layers ≤ 1
  /-- nothing has happened to the fields, or somebody is at it -/
  fresh : st.flag = false → st.fields = ⟨none, [], [], none, 0, 0⟩ ∨ ∃ g, (∃ k, st.pc g = .run k) ∨ st.pc g = .set

theorem setPc_pc (st : State) (g h : Nat) (p : Pc) : (st.setPc g p).pc h = if h = g then p else st.pc h := rfl

/-- a step that leaves the fields and the flag alone, outside of the critical section -/
theorem Inv.move {st : State} (hi : Inv n config layers st) {g : Nat} {p : Pc} (h1 : ¬ inside (st.pc g)) (h2 : ¬ inside p)
    (h3 : PcInv n config layers st.flag st.fields p) : Inv n config layers (st.setPc g p) where
  owner h := by
    rw [setPc_pc]
    split
    · rename_i e; subst e
      exact ⟨fun x => absurd x h2, fun x => absurd ((hi.owner h).mpr x) h1⟩
    · exact hi.owner h
  pcs h := by
    rw [setPc_pc]
    split
    · exact h3
    · exact hi.pcs h
  final := hi.final
  asked := hi.asked
  fresh hf := (hi.fresh hf).imp id (fun ⟨h, hh⟩ => ⟨h, by
    have : h ≠ g := by
      rintro rfl
      rcases hh with ⟨k, e⟩ | e <;> rw [e] at h1 <;> exact h1 trivial
    rw [setPc_pc, if_neg this]; exact hh⟩)

theorem inv_step {st st' : State} (hi : Inv n config layers st) (hs : Step n config layers st st') : Inv n config layers st' := by
  have only : ∀ g h, inside (st.pc g) → inside (st.pc h) → h = g := fun g h h1 h2 =>
    Option.some.inj (((hi.owner h).mp h2).symm.trans ((hi.owner g).mp h1))
  have away : ∀ g h, inside (st.pc g) → h ≠ g → ¬ inside (st.pc h) := fun g h h1 hne h2 => hne (only g h h1 h2)
  cases hs with
  | fast g h1 h2 => exact hi.move (by rw [h1]; exact id) id h2
  | slow g h1 h2 => exact hi.move (by rw [h1]; exact id) id trivial
  | lock g h1 h2 =>
    have none : ∀ h, ¬ inside (st.pc h) := fun h hh => by have := (hi.owner h).mp hh; rw [h2] at this; cases this
    refine ⟨?_, ?_, hi.final, hi.asked, ?_⟩
    · intro h
      rw [setPc_pc]
      split
      · rename_i e; subst e; exact ⟨fun _ => rfl, fun _ => trivial⟩
      · rename_i e
        exact ⟨fun x => absurd x (none h), fun x => absurd (Option.some.inj x).symm e⟩
    · intro h
      rw [setPc_pc]
      split
      · trivial
      · exact hi.pcs h
    · intro hf
      refine (hi.fresh hf).imp id (fun ⟨h, hh⟩ => absurd ?_ (none h))
      rcases hh with ⟨k, e⟩ | e <;> rw [e] <;> trivial
  | again g h1 h2 =>
    have hin : inside (st.pc g) := by rw [h1]; trivial
    refine ⟨?_, ?_, hi.final, hi.asked, ?_⟩
    · intro h
      rw [setPc_pc]
      split
      · rename_i e; subst e; exact ⟨fun _ => (hi.owner h).mp hin, fun _ => trivial⟩
      · exact hi.owner h
    · intro h
      rw [setPc_pc]
      split
      · exact h2
      · exact hi.pcs h
    · intro hf; exact absurd (h2.symm.trans hf) (by decide)
  | first g h1 h2 =>
    have hin : inside (st.pc g) := by rw [h1]; trivial
    have hfresh : st.fields = ⟨none, [], [], none, 0, 0⟩ := by
      rcases hi.fresh h2 with e | ⟨h, hh⟩
      · exact e
      · have hh' : inside (st.pc h) := by rcases hh with ⟨k, e⟩ | e <;> rw [e] <;> trivial
        obtain rfl := only g h hin hh'
        rcases hh with ⟨k, e⟩ | e <;> rw [h1] at e <;> cases e
    refine ⟨?_, ?_, hi.final, hi.asked, ?_⟩
    · intro h
      rw [setPc_pc]
      split
      · rename_i e; subst e; exact ⟨fun _ => (hi.owner h).mp hin, fun _ => trivial⟩
      · exact hi.owner h
    · intro h
      rw [setPc_pc]
      split
      · refine ⟨h2, ?_⟩
        show Safe n config layers initCode st.fields
        rw [hfresh]; exact init_safe
      · exact hi.pcs h
    · intro _; exact .inl hfresh
  | run g k k' v' h1 ha =>
    have hin : inside (st.pc g) := by rw [h1]; trivial
    have hp := hi.pcs g
    rw [h1] at hp
    obtain ⟨hf, hsafe⟩ := hp
    have hsafe' := hsafe.next ha
    refine ⟨?_, ?_, ?_, hsafe'.asked, ?_⟩
    · intro h
      rw [setPc_pc]
      split
      · rename_i e; subst e; exact ⟨fun _ => (hi.owner h).mp hin, fun _ => trivial⟩
      · exact hi.owner h
    · intro h
      rw [setPc_pc]
      split
      · exact ⟨hf, hsafe'⟩
      · rename_i e
        have hh := hi.pcs h
        have ha := away g h hin e
        show PcInv n config layers st.flag v' (st.pc h)
        rw [hf] at hh ⊢
        cases hpc : st.pc h <;> rw [hpc] at hh ha <;> first | trivial | exact absurd trivial ha | exact absurd hh (by decide) | exact absurd hh.1 (by decide)
    · intro hf'; exact absurd (hf.symm.trans hf') (by decide)
    · intro _; exact .inr ⟨g, .inl ⟨k', by rw [setPc_pc, if_pos rfl]⟩⟩
  | ran g h1 =>
    have hin : inside (st.pc g) := by rw [h1]; trivial
    have hp := hi.pcs g
    rw [h1] at hp
    refine ⟨?_, ?_, hi.final, hi.asked, ?_⟩
    · intro h
      rw [setPc_pc]
      split
      · rename_i e; subst e; exact ⟨fun _ => (hi.owner h).mp hin, fun _ => trivial⟩
      · exact hi.owner h
    · intro h
      rw [setPc_pc]
      split
      · exact hp
      · exact hi.pcs h
    · intro _; exact .inr ⟨g, .inr (by rw [setPc_pc, if_pos rfl])⟩
  | set g h1 =>
    have hin : inside (st.pc g) := by rw [h1]; trivial
    have hp := hi.pcs g
    rw [h1] at hp
    obtain ⟨hf, hfin, _⟩ := hp
    refine ⟨?_, ?_, fun _ => hfin, hi.asked, fun hf => (by cases hf)⟩
    · intro h
      rw [setPc_pc]
      split
      · rename_i e; subst e; exact ⟨fun _ => (hi.owner h).mp hin, fun _ => trivial⟩
      · exact hi.owner h
    · intro h
      rw [setPc_pc]
      split
      · rfl
      · rename_i e
        have hh := hi.pcs h
        have ha := away g h hin e
        show PcInv n config layers true st.fields (st.pc h)
        rw [hf] at hh
        cases hpc : st.pc h <;> rw [hpc] at hh ha <;> first | trivial | exact absurd trivial ha | exact absurd hh (by decide) | exact absurd hh.1 (by decide)
  | unlock g h1 =>
    have hin : inside (st.pc g) := by rw [h1]; trivial
    have hp := hi.pcs g
    rw [h1] at hp
    refine ⟨?_, ?_, hi.final, hi.asked, ?_⟩
    · intro h
      rw [setPc_pc]
      split
      · exact ⟨fun x => x.elim, fun x => (by cases x)⟩
      · rename_i e
        exact ⟨fun x => absurd x (away g h hin e), fun x => (by cases x)⟩
    · intro h
      rw [setPc_pc]
      split
      · exact hp
      · exact hi.pcs h
    · intro hf; exact absurd (hp.symm.trans hf) (by decide)
  | failed g e h1 h2 =>
    have hp := hi.pcs g
    rw [h1] at hp
    exact hi.move (by rw [h1]; exact id) id ⟨hp, by simp [Fields.says, h2]⟩
  | ok g h1 h2 =>
    have hp := hi.pcs g
    rw [h1] at hp
    exact hi.move (by rw [h1]; exact id) id ⟨hp, h2⟩
  | readWd g h1 =>
    have hp := hi.pcs g
    rw [h1] at hp
    exact hi.move (by rw [h1]; exact id) id ⟨hp.1, hp.2, rfl⟩
  | readPath g wd h1 =>
    have hp := hi.pcs g
    rw [h1] at hp
    exact hi.move (by rw [h1]; exact id) id ⟨hp.1, hp.2.1, hp.2.2, rfl⟩
  | readFs g wd path h1 =>
    have hp := hi.pcs g
    rw [h1] at hp
    obtain ⟨h2, h3, rfl, rfl⟩ := hp
    exact hi.move (by rw [h1]; exact id) id ⟨h2, by simp [Fields.says, h3]⟩

theorem inv_reach {st : State} (h : Reach n config layers st) : Inv n config layers st := by
  induction h with
  | init =>
    exact ⟨fun g => ⟨fun x => x.elim, fun x => (by cases x)⟩, fun g => trivial, fun h => absurd h (by decide), ⟨Nat.zero_le _, Nat.zero_le _⟩, fun _ => .inl rfl⟩
  | step _ hs ih => exact inv_step ih hs

/-- **C123**: whatever the interleaving, and even if the image answers differently each time it is asked: it is asked for its config and
for its layers at most once, and there is one image, with answers that this one gave, such that every goroutine that has got past
`ensureInitialized` goes on with exactly what reading that image from beginning to end gives - the same error, or the working
directory, the search path and the file system, never a part of them (`done none` would be a missing file system). -/
theorem C123_once {st : State} (h : Reach n config layers st) :
    st.fields.configs ≤ 1 ∧ st.fields.layers ≤ 1 ∧
    ((∃ g r, st.pc g = .done r) → ∃ img : OciImage, config img.config ∧ ((∃ c, img.config = .ok c) → layers img.layers) ∧
      ∀ g r, st.pc g = .done r → ∃ x, r = some x ∧ imageInit n img = some x) := by
  have hi := inv_reach h
  refine ⟨hi.asked.1, hi.asked.2, ?_⟩
  rintro ⟨g, r, hg⟩
  have hp := hi.pcs g
  rw [hg] at hp
  obtain ⟨img, h1, h2, h3, h4⟩ := hi.final hp.1
  refine ⟨img, h1, h2, ?_⟩
  intro g' r' hg'
  have hp' := hi.pcs g'
  rw [hg'] at hp'
  rw [hp'.2]
  cases hv : st.fields.says with
  | none => exact absurd hv h4
  | some x => exact ⟨x, rfl, h3.trans hv⟩

/-! ### No deadlock -/

/-- from `st`, steps lead to `st'` -/
inductive Finish (n : Nat) (config : Except Unit (Option (Str × List Str)) → Prop) (layers : Except Unit (List (List Entry)) → Prop) :
    State → State → Prop
  | refl (st : State) : Finish n config layers st st
  | step {st st' st'' : State} : Step n config layers st st' → Finish n config layers st' st'' → Finish n config layers st st''

theorem Finish.trans {a b c : State} (h : Finish n config layers a b) (h' : Finish n config layers b c) : Finish n config layers a c := by
  induction h with
  | refl => exact h'
  | step hs _ ih => exact .step hs (ih h')

theorem Finish.one {a b : State} (h : Step n config layers a b) : Finish n config layers a b := .step h (.refl _)

/-- the image answers, and the layers it may give can be loaded or are refused -/
structure Answers (n : Nat) (config : Except Unit (Option (Str × List Str)) → Prop) (layers : Except Unit (List (List Entry)) → Prop) : Prop where
  someConfig : ∃ c, config c
  someLayers : ∃ l, layers l
  load : ∀ ls, layers (.ok ls) → loadLayers n ls true ≠ none

/-- only layers that came from the image are loaded -/
def Comes (layers : Except Unit (List (List Entry)) → Prop) : Code → Prop
  | .done => True
  | .setErr _ k | .setWd _ k | .setPath _ k | .setFs _ k => Comes layers k
  | .getWd k => ∀ x, Comes layers (k x)
  | .askConfig k => ∀ c, Comes layers (k c)
  | .askLayers k => ∀ l, layers l → Comes layers (k l)
  | .load ls k => layers (.ok ls) ∧ ∀ r, Comes layers (k r)

theorem layers_comes : Comes layers layersCode := by
  intro l hl
  cases l with
  | error e => trivial
  | ok ls => exact ⟨hl, fun r => by cases r <;> trivial⟩

theorem path_comes (env : List Str) : Comes layers (pathCode env) := by
  unfold pathCode
  split <;> exact layers_comes

theorem init_comes : Comes layers initCode := by
  intro c
  rcases c with e | _ | ⟨w, env⟩
  · trivial
  · exact layers_comes
  · show Comes layers (if w ≠ [] then _ else _)
    split
    · intro x
      simp only
      split
      · intro y; exact path_comes env
      · exact path_comes env
    · exact path_comes env

theorem Comes.next {k k' : Code} {v v' : Fields} (h : Comes layers k) (ha : Access n config layers k v k' v') : Comes layers k' := by
  cases ha with
  | setErr => exact h
  | setWd => exact h
  | getWd => exact h _
  | setPath => exact h
  | setFs => exact h
  | askConfig _ _ c hc => exact h c
  | askLayers _ _ l hl => exact h l hl
  | load _ _ _ r hr => exact h.2 r

theorem comes_reach {st : State} (h : Reach n config layers st) : ∀ g k, st.pc g = .run k → Comes layers k := by
  induction h with
  | init => intro g k e; cases e
  | @step st st' _ hs ih =>
    have keep : ∀ (st2 : State) (g : Nat) (p : Pc), st2.pc = st.pc → (∀ k, p = .run k → Comes layers k) →
        ∀ h k, (st2.setPc g p).pc h = .run k → Comes layers k := by
      intro st2 g p e hp h k
      rw [setPc_pc]
      split
      · exact hp k
      · rw [e]; exact ih h k
    cases hs with
    | first g _ _ => exact keep _ g _ rfl (fun k e => by cases e; exact init_comes)
    | run g k1 k2 v' h1 ha => exact keep _ g _ rfl (fun k e => by cases e; exact (ih g k1 h1).next ha)
    | fast g => exact keep _ g _ rfl (fun k e => by cases e)
    | slow g => exact keep _ g _ rfl (fun k e => by cases e)
    | lock g => exact keep _ g _ rfl (fun k e => by cases e)
    | again g => exact keep _ g _ rfl (fun k e => by cases e)
    | ran g => exact keep _ g _ rfl (fun k e => by cases e)
    | set g => exact keep _ g _ rfl (fun k e => by cases e)
    | unlock g => exact keep _ g _ rfl (fun k e => by cases e)
    | failed g => exact keep _ g _ rfl (fun k e => by cases e)
    | ok g => exact keep _ g _ rfl (fun k e => by cases e)
    | readWd g => exact keep _ g _ rfl (fun k e => by cases e)
    | readPath g => exact keep _ g _ rfl (fun k e => by cases e)
    | readFs g => exact keep _ g _ rfl (fun k e => by cases e)

theorem finish_run (ha : Answers n config layers) (g : Nat) : ∀ (k : Code) (st : State), Comes layers k → st.pc g = .run k →
    ∃ v, Finish n config layers st ({ st with fields := v }.setPc g (.run .done)) := by
  have glue : ∀ (st : State) (v v' : Fields) (p q : Pc),
      ({ ({ st with fields := v }.setPc g p) with fields := v' }.setPc g q) = { st with fields := v' }.setPc g q := by
    intro st v v' p q
    simp only [State.setPc, State.mk.injEq, true_and]
    funext h
    split <;> rfl
  have one : ∀ (st : State) (k k' : Code) (v : Fields), st.pc g = .run k → Access n config layers k st.fields k' v →
      (∀ st : State, st.pc g = .run k' → ∃ v, Finish n config layers st ({ st with fields := v }.setPc g (.run .done))) →
      ∃ v, Finish n config layers st ({ st with fields := v }.setPc g (.run .done)) := by
    intro st k k' v hp hacc ih
    obtain ⟨v', h⟩ := ih ({ st with fields := v }.setPc g (.run k')) (by rw [setPc_pc, if_pos rfl])
    rw [glue] at h
    exact ⟨v', .step (.run st g k k' v hp hacc) h⟩
  intro k
  induction k with
  | done =>
    intro st _ hp
    refine ⟨st.fields, ?_⟩
    have : ({ st with fields := st.fields }.setPc g (.run .done)) = st := by
      cases st with
      | mk flag owner fields pc =>
        simp only [State.setPc, State.mk.injEq, true_and]
        funext h
        split
        · rename_i e; rw [e]; exact hp.symm
        · rfl
    rw [this]; exact .refl _
  | setErr e k ih => intro st hcm hp; exact one st _ _ _ hp (.setErr e k _) (fun s => ih s hcm)
  | setWd x k ih => intro st hcm hp; exact one st _ _ _ hp (.setWd x k _) (fun s => ih s hcm)
  | getWd k ih => intro st hcm hp; exact one st _ _ _ hp (.getWd k _) (fun s => ih _ s (hcm _))
  | setPath x k ih => intro st hcm hp; exact one st _ _ _ hp (.setPath x k _) (fun s => ih s hcm)
  | setFs S k ih => intro st hcm hp; exact one st _ _ _ hp (.setFs S k _) (fun s => ih s hcm)
  | askConfig k ih => intro st hcm hp; obtain ⟨c, hc⟩ := ha.someConfig; exact one st _ _ _ hp (.askConfig k _ c hc) (fun s => ih c s (hcm c))
  | askLayers k ih => intro st hcm hp; obtain ⟨l, hl⟩ := ha.someLayers; exact one st _ _ _ hp (.askLayers k _ l hl) (fun s => ih l s (hcm l hl))
  | load ls k ih =>
    intro st hcm hp
    cases hr : loadLayers n ls true with
    | none => exact absurd hr (ha.load ls hcm.1)
    | some r => exact one st _ _ _ hp (.load ls k _ r hr) (fun s => ih r s (hcm.2 r))

/-- goroutine `g` alone has moved on, to `p` (the flag and the fields may have changed, and nobody holds the mutex) -/
def Moved (g : Nat) (p : Pc) (st st' : State) : Prop := st'.owner = none ∧ st'.pc g = p ∧ ∀ h, h ≠ g → st'.pc h = st.pc h

theorem finish_read (g : Nat) (st : State) (hn : st.owner = none) (hp : st.pc g = .readErr) :
    ∃ r st', Finish n config layers st st' ∧ Moved g (.done r) st st' := by
  have pc : ∀ (st : State) (p : Pc), (st.setPc g p).pc g = p := fun st p => by rw [setPc_pc, if_pos rfl]
  have off : ∀ (st : State) (p : Pc) h, h ≠ g → (st.setPc g p).pc h = st.pc h := fun st p h hh => by rw [setPc_pc, if_neg hh]
  cases he : st.fields.err with
  | some e => exact ⟨_, _, .one (.failed st g e hp he), hn, pc _ _, off _ _⟩
  | none =>
    let s1 := st.setPc g .readWd
    let s2 := s1.setPc g (.readPath s1.fields.wd)
    let s3 := s2.setPc g (.readFs s1.fields.wd s2.fields.path)
    refine ⟨_, _, .step (.ok st g hp he) (.step (.readWd s1 g (pc _ _)) (.step (.readPath s2 g _ (pc _ _)) (.one (.readFs s3 g _ _ (pc _ _))))), hn, pc _ _, ?_⟩
    intro h hh
    rw [off _ _ h hh, off _ _ h hh, off _ _ h hh, off _ _ h hh]

theorem finish_check (ha : Answers n config layers) (g : Nat) (st : State) (hp : st.pc g = .check) :
    ∃ st', Finish n config layers st st' ∧ Moved g .readErr st st' := by
  have pc : ∀ (st : State) (p : Pc), (st.setPc g p).pc g = p := fun st p => by rw [setPc_pc, if_pos rfl]
  have off : ∀ (st : State) (p : Pc) h, h ≠ g → (st.setPc g p).pc h = st.pc h := fun st p h hh => by rw [setPc_pc, if_neg hh]
  cases hf : st.flag with
  | true =>
    refine ⟨_, .step (.again st g hp hf) (.one (.unlock _ g (pc _ _))), rfl, pc _ _, ?_⟩
    intro h hh
    rw [off _ _ h hh]; exact off _ _ h hh
  | false =>
    obtain ⟨v, hv⟩ := finish_run ha g initCode (st.setPc g (.run initCode)) init_comes (pc _ _)
    refine ⟨_, .step (.first st g hp hf) (hv.trans (.step (.ran _ g (pc _ _)) (.step (.set _ g (pc _ _)) (.one (.unlock _ g (pc _ _)))))), rfl, pc _ _, ?_⟩
    intro h hh
    rw [off _ _ h hh]
    refine (off _ _ h hh).trans ?_
    refine (off _ _ h hh).trans ?_
    refine (off _ _ h hh).trans ?_
    exact off _ _ h hh

/-- a goroutine outside of the critical section gets to the end when the mutex is free -/
theorem finish_one (ha : Answers n config layers) (g : Nat) (st : State) (hn : st.owner = none) (hp : ¬ inside (st.pc g)) :
    ∃ r st', Finish n config layers st st' ∧ Moved g (.done r) st st' := by
  have pc : ∀ (st : State) (p : Pc), (st.setPc g p).pc g = p := fun st p => by rw [setPc_pc, if_pos rfl]
  have off : ∀ (st : State) (p : Pc) h, h ≠ g → (st.setPc g p).pc h = st.pc h := fun st p h hh => by rw [setPc_pc, if_neg hh]
  have fromLock : ∀ st : State, st.owner = none → st.pc g = .lock → ∃ r st', Finish n config layers st st' ∧ Moved g (.done r) st st' := by
    intro st hn hp
    obtain ⟨s1, a1, a2, a3, a4⟩ := finish_check ha g ({ st with owner := some g }.setPc g .check) (pc _ _)
    obtain ⟨r, s2, b1, b2, b3, b4⟩ := finish_read (n := n) (config := config) (layers := layers) g s1 a2 a3
    exact ⟨r, s2, .step (.lock st g hp hn) (a1.trans b1), b2, b3, fun h hh => (b4 h hh).trans ((a4 h hh).trans (off _ _ h hh))⟩
  have then' : ∀ {st : State} (p : Pc) (st' : State), Step n config layers st st' → st' = st.setPc g p →
      (∃ r s, Finish n config layers st' s ∧ Moved g (.done r) st' s) → ∃ r s, Finish n config layers st s ∧ Moved g (.done r) st s := by
    rintro st p st' hs rfl ⟨r, s, h1, h2, h3, h4⟩
    exact ⟨r, s, .step hs h1, h2, h3, fun h hh => (h4 h hh).trans (off _ _ h hh)⟩
  cases hpc : st.pc g with
  | start =>
    cases hf : st.flag with
    | true => exact then' _ _ (.fast st g hpc hf) rfl (finish_read g _ hn (pc _ _))
    | false => exact then' _ _ (.slow st g hpc hf) rfl (fromLock _ hn (pc _ _))
  | lock => exact fromLock st hn hpc
  | check => rw [hpc] at hp; exact absurd trivial hp
  | run k => rw [hpc] at hp; exact absurd trivial hp
  | set => rw [hpc] at hp; exact absurd trivial hp
  | unlock => rw [hpc] at hp; exact absurd trivial hp
  | readErr => exact finish_read g st hn hpc
  | readWd =>
    refine then' _ _ (.readWd st g hpc) rfl (then' _ _ (.readPath _ g _ (pc _ _)) rfl ⟨_, _, .one (.readFs _ g _ _ (pc _ _)), hn, pc _ _, off _ _⟩)
  | readPath wd => exact then' _ _ (.readPath st g wd hpc) rfl ⟨_, _, .one (.readFs _ g _ _ (pc _ _)), hn, pc _ _, off _ _⟩
  | readFs wd path => exact ⟨_, _, .one (.readFs st g wd path hpc), hn, pc _ _, off _ _⟩
  | done r => exact ⟨r, st, .refl _, hn, hpc, fun _ _ => rfl⟩

theorem finish_all (ha : Answers n config layers) : ∀ (gs : List Nat) (st : State), st.owner = none → (∀ g, ¬ inside (st.pc g)) →
    ∃ st', Finish n config layers st st' ∧ (∀ g ∈ gs, ∃ r, st'.pc g = .done r) ∧ ∀ g r, st.pc g = .done r → st'.pc g = .done r
  | [], st, _, _ => ⟨st, .refl _, by simp, fun _ _ h => h⟩
  | g :: gs, st, hn, hin => by
    by_cases hd : ∃ r, st.pc g = .done r
    · obtain ⟨r, hr⟩ := hd
      obtain ⟨s, h1, h2, h3⟩ := finish_all ha gs st hn hin
      refine ⟨s, h1, ?_, h3⟩
      intro h hh
      rcases List.mem_cons.mp hh with rfl | hh
      · exact ⟨r, h3 _ r hr⟩
      · exact h2 h hh
    · obtain ⟨r, s, a1, a2, a3, a4⟩ := finish_one ha g st hn (hin g)
      obtain ⟨s', b1, b2, b3⟩ := finish_all ha gs s a2 (by
        intro h
        by_cases hh : h = g
        · rw [hh, a3]; exact id
        · rw [a4 h hh]; exact hin h)
      refine ⟨s', a1.trans b1, ?_, ?_⟩
      · intro h hh
        rcases List.mem_cons.mp hh with rfl | hh
        · exact ⟨r, b3 _ r a3⟩
        · exact b2 h hh
      · intro h r' e
        by_cases hh : h = g
        · rw [hh] at e; exact absurd ⟨r', e⟩ hd
        · exact b3 h r' ((a4 h hh).trans e)

theorem Reach.finish {st st' : State} (h : Reach n config layers st) (hf : Finish n config layers st st') : Reach n config layers st' := by
  induction hf with
  | refl => exact h
  | step hs _ ih => exact ih (.step h hs)

/-- **C123**, no deadlock: in every state that can come up, if the image answers and its layers do not make `squash.Load` run forever, then
any goroutines can get past `ensureInitialized`, and they go on with an error or with all of the fields. -/
theorem C123_no_deadlock {st : State} (h : Reach n config layers st) (ha : Answers n config layers) (gs : List Nat) :
    ∃ st', Finish n config layers st st' ∧ ∀ g ∈ gs, ∃ x, st'.pc g = .done (some x) := by
  have hi := inv_reach h
  have pc : ∀ g (st : State) (p : Pc), (st.setPc g p).pc g = p := fun g st p => by rw [setPc_pc, if_pos rfl]
  have off : ∀ g (st : State) (p : Pc) h, h ≠ g → (st.setPc g p).pc h = st.pc h := fun g st p h hh => by rw [setPc_pc, if_neg hh]
  have free : ∃ s, Finish n config layers st s ∧ s.owner = none ∧ ∀ g, ¬ inside (s.pc g) := by
    cases ho : st.owner with
    | none => exact ⟨st, .refl _, ho, fun g hg => by have := (hi.owner g).mp hg; rw [ho] at this; cases this⟩
    | some g =>
      have hin : inside (st.pc g) := (hi.owner g).mpr ho
      have out : ∀ s : State, s.pc g = .readErr → (∀ h, h ≠ g → s.pc h = st.pc h) → ∀ h, ¬ inside (s.pc h) := by
        intro s h1 h2 h
        by_cases hh : h = g
        · rw [hh, h1]; exact id
        · rw [h2 h hh]
          intro hx
          have := (hi.owner h).mp hx
          rw [ho] at this
          exact hh (Option.some.inj this).symm
      have unl : ∀ s : State, s.pc g = .unlock → (∀ h, h ≠ g → s.pc h = st.pc h) → Finish n config layers st s →
          ∃ s, Finish n config layers st s ∧ s.owner = none ∧ ∀ g, ¬ inside (s.pc g) := by
        intro s h1 h2 h3
        exact ⟨_, h3.trans (.one (.unlock s g h1)), rfl, out _ (pc _ _ _) (fun h hh => (off _ _ _ h hh).trans (h2 h hh))⟩
      have setU : ∀ s : State, s.pc g = .set → (∀ h, h ≠ g → s.pc h = st.pc h) → Finish n config layers st s →
          ∃ s, Finish n config layers st s ∧ s.owner = none ∧ ∀ g, ¬ inside (s.pc g) := by
        intro s h1 h2 h3
        exact unl ({ s with flag := true }.setPc g .unlock) (pc _ _ _) (fun h hh => (off _ _ _ h hh).trans (h2 h hh)) (h3.trans (.one (.set s g h1)))
      cases hp : st.pc g with
      | check =>
        obtain ⟨s, h1, h2, h3, h4⟩ := finish_check ha g st hp
        exact ⟨s, h1, h2, out s h3 h4⟩
      | run k =>
        obtain ⟨v, hv⟩ := finish_run ha g k st (comes_reach h g k hp) hp
        exact setU (({ st with fields := v }.setPc g (.run .done)).setPc g .set) (pc _ _ _) (fun h hh => (off _ _ _ h hh).trans (off _ _ _ h hh)) (hv.trans (.one (.ran _ g (pc _ _ _))))
      | set => exact setU st hp (fun _ _ => rfl) (.refl _)
      | unlock => exact unl st hp (fun _ _ => rfl) (.refl _)
      | start => rw [hp] at hin; exact hin.elim
      | lock => rw [hp] at hin; exact hin.elim
      | readErr => rw [hp] at hin; exact hin.elim
      | readWd => rw [hp] at hin; exact hin.elim
      | readPath wd => rw [hp] at hin; exact hin.elim
      | readFs wd path => rw [hp] at hin; exact hin.elim
      | done r => rw [hp] at hin; exact hin.elim
  obtain ⟨s, h1, h2, h3⟩ := free
  obtain ⟨s', h4, h5, _⟩ := finish_all ha gs s h2 h3
  have hr : Reach n config layers s' := h.finish (h1.trans h4)
  refine ⟨s', h1.trans h4, ?_⟩
  intro g hg
  obtain ⟨r, e⟩ := h5 g hg
  obtain ⟨img, _, _, h6⟩ := (C123_once hr).2.2 ⟨g, r, e⟩
  obtain ⟨x, rfl, _⟩ := h6 g r e
  exact ⟨x, e⟩

/-! ### An execution -/

/-- an image that gives one of two configs, or fails, and has a layer with a file -/
def someConfigs (c : Except Unit (Option (Str × List Str))) : Prop :=
  c = .ok (some ("work".toList, ["PATH=/bin:/usr/bin".toList])) ∨ c = .ok none ∨ c = .error ()

def oneLayer (l : Except Unit (List (List Entry))) : Prop :=
  l = .ok [[⟨⟨"bin".toList, typeDir, [], 0, 0o755, []⟩, []⟩,
    ⟨⟨"bin/sh".toList, typeReg, [], 0, 0o755, []⟩, []⟩]]

theorem answers : Answers 9 someConfigs oneLayer := ⟨⟨_, .inl rfl⟩, ⟨_, rfl⟩, by
  intro ls h
  cases h
  decide +kernel⟩

/-- Goroutine 1 comes while goroutine 0 is at work, waits, and both get the same, of one of the configs; goroutine 2 comes later. -/
example : ∃ st, Reach 9 someConfigs oneLayer st ∧ ∃ x, st.pc 0 = .done (some x) ∧ st.pc 1 = .done (some x) ∧ st.pc 2 = .done (some x) := by
  have h0 : Reach 9 someConfigs oneLayer init := .init
  have h1 := h0.step (.slow _ 0 rfl rfl)
  have h2 := h1.step (.slow _ 1 rfl rfl)
  have h3 := h2.step (.lock _ 0 rfl rfl)
  have h4 := h3.step (.first _ 0 rfl rfl)
  have h5 := h4.step (.run _ 0 _ _ _ rfl (.setWd _ _ _))
  obtain ⟨st, a1, a2⟩ := C123_no_deadlock h5 answers [0, 1, 2]
  have hr := h5.finish a1
  obtain ⟨x, e0⟩ := a2 0 (by simp)
  obtain ⟨x1, e1⟩ := a2 1 (by simp)
  obtain ⟨x2, e2⟩ := a2 2 (by simp)
  obtain ⟨img, _, _, hh⟩ := (C123_once hr).2.2 ⟨0, _, e0⟩
  obtain ⟨y, r0, q0⟩ := hh 0 _ e0
  obtain ⟨y1, r1, q1⟩ := hh 1 _ e1
  obtain ⟨y2, r2, q2⟩ := hh 2 _ e2
  cases r0; cases r1; cases r2
  refine ⟨st, hr, x, e0, ?_, ?_⟩
  · rw [e1, Option.some.inj (q1.symm.trans q0)]
  · rw [e2, Option.some.inj (q2.symm.trans q0)]

/-- what they may get: the working directory with its slash, the search path, and the file system -/
example : (imageInit 9 ⟨.ok (some ("work".toList, ["PATH=/bin:/usr/bin".toList])), .ok [[⟨⟨"bin".toList, typeDir, [], 0, 0o755, []⟩, []⟩]]⟩).map
    (fun r => match r with
      | .ok (w, p, _) => (w, p)
      | .error _ => ([], [])) = some ("/work".toList, ["/bin".toList, "/usr/bin".toList]) := by decide +kernel

end Python.Once
