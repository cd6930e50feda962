import Verif.Python.PlatformFile
/-! Lemmas on decoding a struct: keys, their order, and the fields they set. -/
namespace Python
open Go

theorem uniq_of_nodup {α β : Type} (g : α → β) : ∀ {l : List α}, (l.map g).Nodup → ∀ {a b}, a ∈ l → b ∈ l → g a = g b → a = b
  | [], _, _, _, ha, _, _ => (nomatch ha)
  | x :: l, h, a, b, ha, hb, e => by
    rw [List.map_cons, List.nodup_cons] at h
    rcases List.mem_cons.mp ha with rfl | ha'
    · rcases List.mem_cons.mp hb with rfl | hb'
      · rfl
      · exact absurd (e ▸ List.mem_map_of_mem hb') h.1
    · rcases List.mem_cons.mp hb with rfl | hb'
      · exact absurd (e ▸ List.mem_map_of_mem ha') h.1
      · exact uniq_of_nodup g h.2 ha' hb' e

/-- the names of the fields differ even ignoring case -/
def Apart {σ : Type} (fields : List (Str × Setter σ)) : Prop := (fields.map (fun f => f.1.map foldC)).Nodup

theorem findField_iff {σ : Type} {fields : List (Str × Setter σ)} (h : Apart fields) (k : Str) (set : Setter σ) :
    findField fields k = some set ↔ ∃ n, (n, set) ∈ fields ∧ k.map foldC = n.map foldC := by
  unfold findField
  constructor
  · intro hf
    cases he : fields.find? (fun f => f.1 == k) with
    | some f =>
      rw [he] at hf
      injection hf with hf
      subst hf
      have h1 := List.find?_some he
      have h2 := List.mem_of_find?_eq_some he
      simp only [beq_iff_eq] at h1
      exact ⟨f.1, h2, by rw [h1]⟩
    | none =>
      rw [he] at hf
      simp only [Option.map_eq_some_iff] at hf
      obtain ⟨f, hf, rfl⟩ := hf
      have h1 := List.find?_some hf
      have h2 := List.mem_of_find?_eq_some hf
      simp only [beq_iff_eq] at h1
      exact ⟨f.1, h2, h1.symm⟩
  · rintro ⟨n, hn, hk⟩
    cases he : fields.find? (fun f => f.1 == k) with
    | some f =>
      have h1 := List.find?_some he
      have h2 := List.mem_of_find?_eq_some he
      simp only [beq_iff_eq] at h1
      have := uniq_of_nodup _ h h2 hn (by simp only [h1, hk])
      subst this
      rfl
    | none =>
      simp only
      cases hf : fields.find? (fun f => f.1.map foldC == k.map foldC) with
      | none =>
        have := List.find?_eq_none.mp hf _ hn
        simp only [beq_iff_eq] at this
        exact absurd hk.symm this
      | some f =>
        have h1 := List.find?_some hf
        have h2 := List.mem_of_find?_eq_some hf
        simp only [beq_iff_eq] at h1
        have := uniq_of_nodup _ h h2 hn (by simp only [h1, hk])
        subst this
        rfl

/-! ## The order of the keys -/

theorem keys_insertKey (k : Str) (v : Yaml) (x : Str) : ∀ o, x ∈ (insertKey k v o).map (·.1) ↔ x = k ∨ x ∈ o.map (·.1)
  | [] => by simp [insertKey]
  | (k', v') :: o => by
    rw [insertKey]
    split
    · rename_i h
      subst h
      simp
    · split
      · simp
      · have := keys_insertKey k v x o
        simp only [List.map_cons, List.mem_cons, this]
        constructor
        · rintro (h | h | h)
          · exact .inr (.inl h)
          · exact .inl h
          · exact .inr (.inr h)
        · rintro (h | h | h)
          · exact .inr (.inl h)
          · exact .inl h
          · exact .inr (.inr h)

theorem keys_foldl (x : Str) : ∀ (m o : List (Str × Yaml)),
    x ∈ (m.foldl (fun o kv => insertKey kv.1 kv.2 o) o).map (·.1) ↔ x ∈ m.map (·.1) ∨ x ∈ o.map (·.1)
  | [], o => by simp
  | kv :: m, o => by
    rw [List.foldl_cons, keys_foldl x m, keys_insertKey, List.map_cons, List.mem_cons]
    constructor
    · rintro (h | h | h)
      · exact .inl (.inr h)
      · exact .inl (.inl h)
      · exact .inr h
    · rintro ((h | h) | h)
      · exact .inr (.inl h)
      · exact .inl h
      · exact .inr (.inr h)

theorem keys_object (m : List (Str × Yaml)) (x : Str) : x ∈ (object m).map (·.1) ↔ x ∈ m.map (·.1) := by
  rw [object, keys_foldl]
  simp

theorem perm_insertKey (k : Str) (v : Yaml) : ∀ o, k ∉ o.map (·.1) → List.Perm (insertKey k v o) ((k, v) :: o)
  | [], _ => List.Perm.refl _
  | (k', v') :: o, h => by
    rw [insertKey]
    simp only [List.map_cons, List.mem_cons, not_or] at h
    rw [if_neg h.1]
    split
    · exact List.Perm.refl _
    · exact ((perm_insertKey k v o h.2).cons _).trans (List.Perm.swap _ _ _)

theorem perm_foldl : ∀ (m o : List (Str × Yaml)), (m.map (·.1)).Nodup → (∀ x ∈ m.map (·.1), x ∉ o.map (·.1)) →
    List.Perm (m.foldl (fun o kv => insertKey kv.1 kv.2 o) o) (m ++ o)
  | [], o, _, _ => List.Perm.refl _
  | kv :: m, o, h, hd => by
    rw [List.foldl_cons]
    rw [List.map_cons, List.nodup_cons] at h
    have h1 := perm_insertKey kv.1 kv.2 o (hd _ (by simp))
    refine (perm_foldl m _ h.2 ?_).trans ?_
    · intro x hx
      rw [keys_insertKey]
      rintro (rfl | h')
      · exact h.1 hx
      · exact hd x (by rw [List.map_cons]; exact List.mem_cons_of_mem _ hx) h'
    · refine (List.Perm.append_left m h1).trans ?_
      exact List.perm_middle

theorem perm_object {m : List (Str × Yaml)} (h : (m.map (·.1)).Nodup) : List.Perm (object m) m := by
  have := perm_foldl m [] h (fun _ _ => List.not_mem_nil)
  rwa [List.append_nil] at this

/-! ## Fields -/

theorem decodeFields_ok {σ : Type} (fields : List (Str × Setter σ)) : ∀ o, (∃ f, decodeFields fields o = some f) ↔
    ∀ kv ∈ o, ∃ set g, findField fields kv.1 = some set ∧ set kv.2 = some g
  | [] => by simp [decodeFields]
  | (k, v) :: o => by
    have ih := decodeFields_ok fields o
    rw [List.forall_mem_cons, ← ih, decodeFields]
    constructor
    · rintro ⟨f, hf⟩
      cases h1 : findField fields k with
      | none => rw [h1] at hf; cases hf
      | some set =>
        rw [h1] at hf
        simp only at hf
        cases h2 : set v with
        | none => rw [h2] at hf; cases hf
        | some g =>
          rw [h2] at hf
          simp only at hf
          cases h3 : decodeFields fields o with
          | none => rw [h3] at hf; cases hf
          | some f' => exact ⟨⟨set, g, rfl, h2⟩, f', rfl⟩
    · rintro ⟨⟨set, g, h1, h2⟩, f, h3⟩
      simp only at h1 h2
      rw [h1]
      simp only
      rw [h2, h3]
      exact ⟨_, rfl⟩

theorem decodeFields_cons {σ : Type} {fields : List (Str × Setter σ)} {k : Str} {v : Yaml} {o : List (Str × Yaml)} {f : σ → σ}
    (hf : decodeFields fields ((k, v) :: o) = some f) :
    ∃ set g f', findField fields k = some set ∧ set v = some g ∧ decodeFields fields o = some f' ∧ ∀ s, f s = f' (g s) := by
  rw [decodeFields] at hf
  cases h1 : findField fields k with
  | none => rw [h1] at hf; cases hf
  | some set =>
    rw [h1] at hf
    simp only at hf
    cases h2 : set v with
    | none => rw [h2] at hf; cases hf
    | some g =>
      rw [h2] at hf
      simp only at hf
      cases h3 : decodeFields fields o with
      | none => rw [h3] at hf; cases hf
      | some f' =>
        rw [h3] at hf
        injection hf with hf
        exact ⟨set, g, f', rfl, h2, rfl, fun s => by rw [← hf]; rfl⟩

/-- decoding the field leaves the part `π` of the struct as it is -/
def Keeps {σ α : Type} (π : σ → α) (set : Setter σ) : Prop := ∀ v g, set v = some g → ∀ s, π (g s) = π s

/-- the field called `n` is the only one that changes the part `π` of the struct -/
structure Slot {σ α : Type} (fields : List (Str × Setter σ)) (n : Str) (set : Setter σ) (π : σ → α) : Prop where
  apart : Apart fields
  mem : (n, set) ∈ fields
  keeps : ∀ r ∈ fields, r.1 ≠ n → Keeps π r.2
  congr : ∀ v g, set v = some g → ∀ s s', π s = π s' → π (g s) = π (g s')

theorem slot_other {σ α : Type} {fields : List (Str × Setter σ)} {n : Str} {set : Setter σ} {π : σ → α} (sl : Slot fields n set π) :
    ∀ (o : List (Str × Yaml)) (f : σ → σ), decodeFields fields o = some f → (∀ kv ∈ o, kv.1.map foldC ≠ n.map foldC) →
      ∀ s, π (f s) = π s
  | [], f, hf, _, s => by injection hf with hf; rw [← hf]; rfl
  | (k, v) :: o, f, hf, hn, s => by
    obtain ⟨set', g, f', h1, h2, h3, h4⟩ := decodeFields_cons hf
    rw [h4, slot_other sl o f' h3 (fun kv h => hn kv (List.mem_cons_of_mem _ h))]
    obtain ⟨n', hm, hk⟩ := (findField_iff sl.apart k set').mp h1
    refine sl.keeps _ hm ?_ v g h2 s
    rintro rfl
    exact hn _ List.mem_cons_self hk

theorem slot_at {σ α : Type} {fields : List (Str × Setter σ)} {n : Str} {set : Setter σ} {π : σ → α} (sl : Slot fields n set π) :
    ∀ (o : List (Str × Yaml)) (f : σ → σ), decodeFields fields o = some f → (o.map (fun kv => kv.1.map foldC)).Nodup →
      ∀ k v, (k, v) ∈ o → k.map foldC = n.map foldC → ∃ g, set v = some g ∧ ∀ s, π (f s) = π (g s)
  | [], _, _, _, _, _, h, _ => (nomatch h)
  | (k', v') :: o, f, hf, hn, k, v, hkv, hk => by
    obtain ⟨set', g, f', h1, h2, h3, h4⟩ := decodeFields_cons hf
    rw [List.map_cons, List.nodup_cons] at hn
    rcases List.mem_cons.mp hkv with e | hkv
    · cases e
      have : set' = set := by
        have := (findField_iff sl.apart k' set).mpr ⟨n, sl.mem, hk⟩
        rw [h1] at this
        exact Option.some.inj this
      subst this
      refine ⟨g, h2, fun s => ?_⟩
      rw [h4, slot_other sl o f' h3]
      intro kv hkv e
      exact hn.1 (by rw [hk, ← e]; exact List.mem_map_of_mem (f := fun kv : Str × Yaml => kv.1.map foldC) hkv)
    · obtain ⟨g', h5, h6⟩ := slot_at sl o f' h3 hn.2 k v hkv hk
      refine ⟨g', h5, fun s => ?_⟩
      rw [h4, h6]
      refine sl.congr v g' h5 _ _ ?_
      obtain ⟨n', hm, hk'⟩ := (findField_iff sl.apart k' set').mp h1
      refine sl.keeps _ hm ?_ v' g h2 s
      rintro rfl
      exact hn.1 (by
        simp only
        rw [hk', ← hk]
        exact List.mem_map_of_mem (f := fun kv : Str × Yaml => kv.1.map foldC) hkv)

/-! ## The kinds of fields -/

theorem keeps_str {σ α : Type} {π : σ → α} {put : Str → σ → σ} (h : ∀ v s, π (put v s) = π s) : Keeps π (setStr put) := by
  intro v g hg s
  cases v <;> simp only [setStr, Option.some.injEq, reduceCtorEq] at hg <;> subst hg
  · rfl
  · exact h _ _

theorem keeps_int {σ α : Type} {π : σ → α} {put : Int → σ → σ} (h : ∀ v s, π (put v s) = π s) : Keeps π (setInt put) := by
  intro v g hg s
  cases v <;> simp only [setInt, Option.some.injEq, reduceCtorEq] at hg
  · subst hg; rfl
  · split at hg
    · injection hg with hg; subst hg; exact h _ _
    · cases hg

theorem keeps_bytes {σ α : Type} {π : σ → α} {b64} {put : List UInt8 → σ → σ} (h : ∀ v s, π (put v s) = π s) :
    Keeps π (setBytes b64 put) := by
  intro v g hg s
  cases v <;> simp only [setBytes, Option.some.injEq, reduceCtorEq, Option.map_eq_some_iff] at hg
  · subst hg; exact h _ _
  · obtain ⟨_, _, rfl⟩ := hg; exact h _ _
  · obtain ⟨_, _, rfl⟩ := hg; exact h _ _

theorem keeps_tags {σ α : Type} {π : σ → α} {put : List Pep425.Tag → σ → σ} (h : ∀ v s, π (put v s) = π s) : Keeps π (setTags put) := by
  intro v g hg s
  cases v <;> simp only [setTags, Option.some.injEq, reduceCtorEq, Option.map_eq_some_iff] at hg
  · subst hg; exact h _ _
  · obtain ⟨_, _, rfl⟩ := hg; exact h _ _

theorem keeps_words {σ α : Type} {π : σ → α} {put : List Str → σ → σ} (h : ∀ v s, π (put v s) = π s) : Keeps π (setWords put) := by
  intro v g hg s
  cases v <;> simp only [setWords, Option.some.injEq, reduceCtorEq, Option.map_eq_some_iff] at hg
  · subst hg; exact h _ _
  · obtain ⟨_, _, rfl⟩ := hg; exact h _ _

theorem keeps_scheme {α : Type} {π : PlatFile → α} (h : ∀ (p : PlatFile) sc, π { p with scheme := sc } = π p) : Keeps π setScheme := by
  intro v g hg s
  cases v <;> simp only [setScheme, Option.some.injEq, reduceCtorEq, Option.map_eq_some_iff] at hg
  · subst hg; rfl
  · obtain ⟨_, _, rfl⟩ := hg; exact h _ _

theorem keeps_version {α : Type} {π : PlatFile → α} (h : ∀ (p : PlatFile) v, π { p with versionInfo := v } = π p) : Keeps π setVersion := by
  intro v g hg s
  cases v <;> simp only [setVersion, Option.some.injEq, reduceCtorEq, Option.map_eq_some_iff] at hg
  · subst hg; exact h _ _
  · obtain ⟨_, _, rfl⟩ := hg; exact h _ _

theorem mapM_cons_some {α β : Type} (f : α → Option β) (a : α) (l : List α) (r : List β) :
    (a :: l).mapM f = some r ↔ ∃ b t, f a = some b ∧ l.mapM f = some t ∧ r = b :: t := by
  rw [List.mapM_cons]
  cases h : f a with
  | none => simp
  | some b =>
    cases h' : l.mapM f with
    | none => simp
    | some t => simp [eq_comm]

theorem apart_scheme : Apart schemeFields := by unfold Apart; decide +kernel
theorem apart_version : Apart versionFields := by unfold Apart; decide +kernel
theorem apart_platform (b64 : Str → Option (List UInt8)) : Apart (platformFields b64) := by
  have : (platformFields b64).map (fun f => f.1.map foldC) = (platformFields (fun _ => none)).map (fun f => f.1.map foldC) := rfl
  unfold Apart
  rw [this]
  decide +kernel

end Python
