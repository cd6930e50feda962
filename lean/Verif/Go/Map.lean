import Verif.Go.Basic
/-!
Go maps with string keys, and `range` over a map that the loop body changes.

A map is an association list; the order of the list has no meaning.  The language specification leaves the order of
`range` open and says: "If a map entry that has not yet been reached is removed during iteration, the corresponding
iteration value will not be produced. If a map entry is created during iteration, that entry may be produced during the
iteration or may be skipped."
-/
namespace Go

/-- a Go map with keys of type `string` -/
abbrev Map (α : Type) := List (Str × α)

namespace Map
variable {α : Type}

/-- `m[k]` with the presence flag -/
def get? (m : Map α) (k : Str) : Option α := (m.find? (fun e => e.1 = k)).map (·.2)

/-- `m[k] = v` -/
def set (m : Map α) (k : Str) (v : α) : Map α := (k, v) :: m.filter (fun e => e.1 ≠ k)

/-- `delete(m, k)` -/
def del (m : Map α) (k : Str) : Map α := m.filter (fun e => e.1 ≠ k)

/-- the keys -/
def keys (m : Map α) : List Str := m.map (·.1)

/-- no key occurs twice: what makes the list a map -/
def WF (m : Map α) : Prop := m.keys.Nodup

/-- the same map -/
def Same (m m' : Map α) : Prop := ∀ k, m.get? k = m'.get? k

theorem get?_nil (k : Str) : get? ([] : Map α) k = none := rfl

theorem get?_cons (k k' : Str) (v : α) (m : Map α) : get? ((k', v) :: m) k = if k' = k then some v else get? m k := by
  unfold get?
  by_cases h : k' = k <;> simp [h]

theorem get?_del (m : Map α) (k k' : Str) : (m.del k).get? k' = if k' = k then none else m.get? k' := by
  induction m with
  | nil => simp [del, get?]
  | cons e m ih =>
    obtain ⟨a, v⟩ := e
    unfold del at ih ⊢
    by_cases h : a = k
    · rw [List.filter_cons_of_neg (by simp [h]), ih, get?_cons]
      by_cases h2 : k' = k
      · simp [h2]
      · rw [if_neg h2, if_neg h2, if_neg (by rw [h]; exact Ne.symm h2)]
    · rw [List.filter_cons_of_pos (by simp [h]), get?_cons, ih, get?_cons]
      by_cases h2 : a = k'
      · subst h2; simp [h]
      · simp [h2]

theorem get?_set (m : Map α) (k k' : Str) (v : α) : (m.set k v).get? k' = if k' = k then some v else m.get? k' := by
  unfold set
  rw [get?_cons]
  by_cases h : k = k'
  · simp [h]
  · have := get?_del m k k'
    unfold del at this
    rw [if_neg h, this, if_neg (Ne.symm h), if_neg (Ne.symm h)]

theorem mem_keys_iff (m : Map α) (k : Str) : k ∈ m.keys ↔ m.get? k ≠ none := by
  induction m with
  | nil => simp [keys, get?]
  | cons e m ih =>
    obtain ⟨a, v⟩ := e
    rw [get?_cons]
    unfold keys at ih ⊢
    rw [List.map_cons, List.mem_cons, ih]
    by_cases h : a = k
    · simp [h]
    · simp only [if_neg h]
      constructor
      · rintro (h2 | h2)
        · exact absurd h2.symm h
        · exact h2
      · exact Or.inr

theorem WF.nil : WF ([] : Map α) := List.nodup_nil

theorem WF.del {m : Map α} (h : WF m) (k : Str) : WF (m.del k) := by
  unfold WF keys Map.del
  exact List.Nodup.sublist (List.Sublist.map _ List.filter_sublist) h

theorem WF.set {m : Map α} (h : WF m) (k : Str) (v : α) : WF (m.set k v) := by
  have h2 := h.del k
  unfold WF keys Map.set Map.del at *
  rw [List.map_cons, List.nodup_cons]
  refine ⟨?_, h2⟩
  intro hm
  obtain ⟨e, he, rfl⟩ := List.mem_map.mp hm
  simp at he

theorem mem_of_get? {m : Map α} {k : Str} {v : α} (h : m.get? k = some v) : (k, v) ∈ m := by
  unfold get? at h
  obtain ⟨e, he, rfl⟩ := Option.map_eq_some_iff.mp h
  have h1 := List.find?_some he
  have h2 := List.mem_of_find?_eq_some he
  simp at h1
  rw [← h1]; exact h2

theorem get?_of_mem {m : Map α} (hw : WF m) {k : Str} {v : α} (h : (k, v) ∈ m) : m.get? k = some v := by
  induction m with
  | nil => cases h
  | cons e m ih =>
    obtain ⟨a, w⟩ := e
    unfold WF keys at hw
    rw [List.map_cons, List.nodup_cons] at hw
    rw [get?_cons]
    rcases List.mem_cons.mp h with h | h
    · cases h; simp
    · have : a ≠ k := by
        rintro rfl
        exact hw.1 (List.mem_map.mpr ⟨_, h, rfl⟩)
      rw [if_neg this]
      exact ih hw.2 h

/-- maps with the same content are permutations of each other -/
theorem Same.perm {m m' : Map α} (h : WF m) (h' : WF m') (hs : Same m m') : m.Perm m' := by
  have nd : ∀ {m : Map α}, WF m → m.Nodup := by
    intro m hm
    unfold WF keys at hm
    exact List.Pairwise.of_map (·.1) (fun a b hab e => hab (by rw [e])) hm
  refine (List.perm_ext_iff_of_nodup (nd h) (nd h')).mpr ?_
  rintro ⟨k, v⟩
  constructor
  · intro hm
    exact mem_of_get? (hs k ▸ get?_of_mem h hm)
  · intro hm
    exact mem_of_get? ((hs k).symm ▸ get?_of_mem h' hm)

theorem Same.of_perm {m m' : Map α} (h : WF m) (hp : m.Perm m') : Same m m' := by
  have h' : WF m' := by
    unfold WF keys at h ⊢
    exact (List.Perm.map _ hp).nodup_iff.mp h
  intro k
  cases e : m.get? k with
  | some v => exact (get?_of_mem h' (hp.mem_iff.mp (mem_of_get? e))).symm
  | none =>
    cases e' : m'.get? k with
    | none => rfl
    | some v => rw [get?_of_mem h (hp.mem_iff.mpr (mem_of_get? e'))] at e; cases e

theorem Same.refl (m : Map α) : Same m m := fun _ => rfl
theorem Same.symm {m m' : Map α} (h : Same m m') : Same m' m := fun k => (h k).symm
theorem Same.trans {a b c : Map α} (h : Same a b) (h' : Same b c) : Same a c := fun k => (h k).trans (h' k)
theorem Same.set {m m' : Map α} (h : Same m m') (k : Str) (v : α) : Same (m.set k v) (m'.set k v) := by
  intro x; rw [get?_set, get?_set, h x]
theorem Same.del {m m' : Map α} (h : Same m m') (k : Str) : Same (m.del k) (m'.del k) := by
  intro x; rw [get?_del, get?_del, h x]

end Map

/-- a change of the map made by the body of a `range` loop -/
inductive MapOp (α : Type) where
  | set (k : Str) (v : α)
  | del (k : Str)

/-- a running `range` over a map: the map as it is now, the keys that were there at the start and are still to come,
and the keys created since that may still come -/
structure RangeState (α : Type) where
  m : Map α
  must : List Str
  may : List Str

/-- the beginning of a `range` -/
def RangeState.start {α : Type} (m : Map α) : RangeState α := ⟨m, m.keys, []⟩

/-- the effect of one change on the running loop -/
def RangeState.apply {α : Type} (s : RangeState α) : MapOp α → RangeState α
  | .set k v => ⟨s.m.set k v, s.must, if k ∈ s.m.keys then s.may else k :: s.may⟩
  | .del k => ⟨s.m.del k, s.must.filter (· ≠ k), s.may.filter (· ≠ k)⟩

/-- the loop arrives at `k` -/
def RangeState.visit {α : Type} (s : RangeState α) (k : Str) : RangeState α :=
  ⟨s.m, s.must.filter (· ≠ k), s.may.filter (· ≠ k)⟩

/-- All runs of `for k := range m { body }`.  `body` sees the key, the map and the other variables (`σ`); it returns
the changes it makes to the map and the new variables, or an error, which ends the loop. -/
inductive RangeRun {α σ : Type} (body : Str → Map α → σ → Except Unit (List (MapOp α) × σ)) :
    RangeState α → σ → Except Unit (Map α × σ) → Prop
  | done {s : RangeState α} {x : σ} : s.must = [] → RangeRun body s x (.ok (s.m, x))
  | fail {s : RangeState α} {x : σ} {k : Str} :
      k ∈ s.must ∨ k ∈ s.may → body k s.m x = .error () → RangeRun body s x (.error ())
  | step {s : RangeState α} {x : σ} {k : Str} {ops : List (MapOp α)} {x' : σ} {r : Except Unit (Map α × σ)} :
      k ∈ s.must ∨ k ∈ s.may → body k s.m x = .ok (ops, x') →
      RangeRun body (ops.foldl RangeState.apply (s.visit k)) x' r → RangeRun body s x r

/-- one change -/
def MapOp.run {α : Type} (m : Map α) : MapOp α → Map α
  | .set k v => m.set k v
  | .del k => m.del k

theorem RangeState.foldl_m {α : Type} (ops : List (MapOp α)) (s : RangeState α) :
    (ops.foldl RangeState.apply s).m = ops.foldl MapOp.run s.m := by
  induction ops generalizing s with
  | nil => rfl
  | cons op ops ih => rw [List.foldl_cons, List.foldl_cons, ih]; cases op <;> rfl

/-- the keys still to come are in the map -/
def RangeState.Pending {α : Type} (s : RangeState α) : Prop := ∀ k, k ∈ s.must ∨ k ∈ s.may → k ∈ s.m.keys

theorem RangeState.Pending.start {α : Type} (m : Map α) : (RangeState.start m).Pending := by
  intro k h
  rcases h with h | h
  · exact h
  · cases h

theorem RangeState.Pending.apply {α : Type} {s : RangeState α} (h : s.Pending) (op : MapOp α) : (s.apply op).Pending := by
  intro k hk
  cases op with
  | set a v =>
    show k ∈ (s.m.set a v).keys
    rw [Map.mem_keys_iff, Map.get?_set]
    by_cases ha : k = a
    · simp [ha]
    · rw [if_neg ha, ← Map.mem_keys_iff]
      apply h
      rcases hk with hk | hk
      · exact Or.inl hk
      · unfold RangeState.apply at hk
        simp only at hk
        split at hk
        · exact Or.inr hk
        · exact Or.inr ((List.mem_cons.mp hk).resolve_left ha)
  | del a =>
    show k ∈ (s.m.del a).keys
    unfold RangeState.apply at hk
    simp only [List.mem_filter, decide_eq_true_eq] at hk
    rw [Map.mem_keys_iff, Map.get?_del]
    have ha : k ≠ a := hk.elim (·.2) (·.2)
    rw [if_neg ha, ← Map.mem_keys_iff]
    exact h k (hk.imp (·.1) (·.1))

theorem RangeState.Pending.visit {α : Type} {s : RangeState α} (h : s.Pending) (k : Str) : (s.visit k).Pending := by
  intro j hj
  unfold RangeState.visit at hj
  simp only [List.mem_filter] at hj
  exact h j (hj.imp (·.1) (·.1))

theorem RangeState.Pending.foldl {α : Type} {s : RangeState α} (h : s.Pending) (ops : List (MapOp α)) :
    (ops.foldl RangeState.apply s).Pending := by
  induction ops generalizing s with
  | nil => exact h
  | cons op ops ih => exact ih (h.apply op)

/-- an invariant of the body is one of the loop -/
theorem RangeRun.inv {α σ : Type} {body : Str → Map α → σ → Except Unit (List (MapOp α) × σ)} (P : Map α → σ → Prop)
    (hstep : ∀ k m x ops x', k ∈ m.keys → P m x → body k m x = .ok (ops, x') → P (ops.foldl MapOp.run m) x')
    {s : RangeState α} {x : σ} {r : Except Unit (Map α × σ)} (h : RangeRun body s x r) (hp : s.Pending) (h0 : P s.m x) :
    ∀ m' x', r = .ok (m', x') → P m' x' := by
  induction h with
  | done _ => intro m' x' he; cases he; exact h0
  | fail _ _ => intro m' x' he; cases he
  | @step s x k ops x' r hk hb _ ih =>
    refine ih ((hp.visit k).foldl ops) ?_
    rw [RangeState.foldl_m]
    exact hstep k s.m x ops x' (hp k hk) h0 hb

theorem MapOp.foldl_wf {α : Type} {m : Map α} (h : m.WF) (ops : List (MapOp α)) : (ops.foldl MapOp.run m).WF := by
  induction ops generalizing m with
  | nil => exact h
  | cons op ops ih =>
    rw [List.foldl_cons]
    cases op with
    | set k v => exact ih (h.set k v)
    | del k => exact ih (h.del k)

end Go
