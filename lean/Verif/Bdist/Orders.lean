import Verif.Bdist.PropsLayer
import Verif.Fsutil.PropsRefs
/-!
The steps of an installation on maps that are the same: whatever the orders of the loops, the results are the same.
-/
namespace Bdist
open Go Fsutil Python

theorem get_some {m : Map α} {k : Str} (h : k ∈ m.keys) : ∃ r, m.get? k = some r := by
  rw [Map.mem_keys_iff] at h
  cases hr : m.get? k with
  | none => exact absurd hr h
  | some r => exact ⟨r, rfl⟩

theorem some_key {m : Map α} {k : Str} {r : α} (h : m.get? k = some r) : k ∈ m.keys := by
  rw [Map.mem_keys_iff, h]; simp

theorem same_of_iff {m m' : Map α} (h : ∀ n r, m.get? n = some r ↔ m'.get? n = some r) : Map.Same m m' := by
  intro k
  cases hr : m.get? k with
  | some r => exact ((h k r).mp hr).symm
  | none =>
    cases hr' : m'.get? k with
    | none => rfl
    | some r => rw [(h k r).mpr hr'] at hr; cases hr

theorem same_wf_perm {m m' : Map α} (hw : m.WF) (hp : m'.Perm m) : m'.WF :=
  (hp.map (fun e : Str × α => e.1)).nodup_iff.mpr hw

/-! ### the loop over the data directory -/

/-- whatever the order, the loop gives the same map, or always fails -/
theorem spread_det {s : Scheme} {d : Str} {m : Map Ref} (hw : m.WF) (hA : Spec.Apart s d m) {r r' : Except Unit (Map Ref × Map Str)}
    (h : RangeRun (spreadBody s d) (RangeState.start m) [] r) (h' : RangeRun (spreadBody s d) (RangeState.start m) [] r') :
    (r = .error () ∧ r' = .error ()) ∨
    ∃ m1 types m1' types', r = .ok (m1, types) ∧ r' = .ok (m1', types') ∧ Map.Same m1 m1' ∧ Map.Same types types' := by
  rcases spread_exact hw hA h with ⟨e, k, hk, hin, hno⟩ | ⟨m1, types, e, _, _, hall, hm, ht⟩
  · rcases spread_exact hw hA h' with ⟨e', _⟩ | ⟨_, _, _, _, _, hall', _⟩
    · exact Or.inl ⟨e, e'⟩
    · exact absurd (hall' k hk hin) hno
  · rcases spread_exact hw hA h' with ⟨_, k, hk, hin, hno⟩ | ⟨m1', types', e', _, _, _, hm', ht'⟩
    · exact absurd (hall k hk hin) hno
    · exact Or.inr ⟨m1, types, m1', types', e, e', same_of_iff (fun n r => (hm n r).trans (hm' n r).symm),
        same_of_iff (fun n r => (ht n r).trans (ht' n r).symm)⟩

/-! ### scripts -/

theorem rewriteScript_plain {digest : Str → Bytes → Str} {plat : Platform} {r : Ref} (h : Plainly r) :
    (rewriteScript digest plat (some r) = some (.error ()) ∧ r.content = none) ∨
    (∃ r', rewriteScript digest plat (some r) = some (.ok r')) ∧ r.content ≠ none := by
  obtain ⟨hd, c, rfl⟩ := h
  cases c with
  | none => exact Or.inl ⟨rfl, rfl⟩
  | some c =>
    refine Or.inr ⟨?_, by simp [Ref.content]⟩
    unfold rewriteScript
    simp only [Ref.content]
    split
    · exact ⟨_, rfl⟩
    · split <;> exact ⟨_, rfl⟩

/-- `rewritePython` does not panic when the scripts are there; it fails iff one of them cannot be read -/
theorem rewritePython_outcome {digest : Str → Bytes → Str} {plat : Platform} {order : List (Str × Str)} (hnd : (order.map (·.1)).Nodup)
    {m : Map Ref} (hm : ∀ n, (n, "scripts".toList) ∈ order → ∃ r, m.get? n = some r ∧ Plainly r) :
    (rewritePython digest plat order m = some (.error ()) ∧
      ∃ n r, (n, "scripts".toList) ∈ order ∧ m.get? n = some r ∧ r.content = none) ∨
    ((∃ m', rewritePython digest plat order m = some (.ok m')) ∧
      ∀ n r, (n, "scripts".toList) ∈ order → m.get? n = some r → r.content ≠ none) := by
  induction order generalizing m with
  | nil => exact Or.inr ⟨⟨m, rfl⟩, fun n r h => (nomatch h)⟩
  | cons e order ih =>
    obtain ⟨a, key⟩ := e
    rw [List.map_cons, List.nodup_cons] at hnd
    rw [rewritePython]
    by_cases hk : key ≠ "scripts".toList
    · rw [if_pos hk]
      have hcons : ∀ n, (n, "scripts".toList) ∈ (a, key) :: order → (n, "scripts".toList) ∈ order := by
        intro n h
        rcases List.mem_cons.mp h with h | h
        · cases h; exact absurd rfl hk
        · exact h
      rcases ih hnd.2 (fun n h => hm n (List.mem_cons_of_mem _ h)) with ⟨h1, n, r, h2, h3⟩ | ⟨h1, h2⟩
      · exact Or.inl ⟨h1, n, r, List.mem_cons_of_mem _ h2, h3⟩
      · exact Or.inr ⟨h1, fun n r h => h2 n r (hcons n h)⟩
    · rw [if_neg hk]
      have hk : key = "scripts".toList := Classical.not_not.mp hk
      subst hk
      obtain ⟨r, hr, hp⟩ := hm a (List.mem_cons_self ..)
      rw [hr]
      rcases rewriteScript_plain (digest := digest) (plat := plat) hp with ⟨h1, h2⟩ | ⟨⟨r', h1⟩, h2⟩
      · rw [h1]
        exact Or.inl ⟨rfl, a, r, List.mem_cons_self .., hr, h2⟩
      · rw [h1]
        have hne : ∀ n, (n, "scripts".toList) ∈ order → n ≠ a := by
          rintro n hn rfl
          exact hnd.1 (List.mem_map.mpr ⟨_, hn, rfl⟩)
        have hget : ∀ n, (n, "scripts".toList) ∈ order → (m.set a r').get? n = m.get? n := by
          intro n hn
          rw [Map.get?_set, if_neg (hne n hn)]
        rcases ih (m := m.set a r') hnd.2 (fun n h => by rw [hget n h]; exact hm n (List.mem_cons_of_mem _ h)) with ⟨h3, n, x, h4, h5, h6⟩ | ⟨h3, h4⟩
        · exact Or.inl ⟨h3, n, x, List.mem_cons_of_mem _ h4, by rw [← hget n h4]; exact h5, h6⟩
        · refine Or.inr ⟨h3, ?_⟩
          intro n x hn hx
          rcases List.mem_cons.mp hn with hn | hn
          · cases hn
            rw [hr] at hx; cases hx; exact h2
          · exact h4 n x hn (by rw [hget n hn]; exact hx)

theorem rewrite_same {digest : Str → Bytes → Str} {plat : Platform} {order order' : List (Str × Str)} (hnd : (order.map (·.1)).Nodup)
    (hp : order'.Perm order) {m m' : Map Ref} (hs : Map.Same m m')
    (hm : ∀ n, (n, "scripts".toList) ∈ order → ∃ r, m.get? n = some r ∧ Plainly r) :
    (rewritePython digest plat order m = some (.error ()) ∧ rewritePython digest plat order' m' = some (.error ())) ∨
    ∃ m2 m2', rewritePython digest plat order m = some (.ok m2) ∧ rewritePython digest plat order' m' = some (.ok m2') ∧ Map.Same m2 m2' := by
  have hnd' : (order'.map (·.1)).Nodup := (hp.map (fun e : Str × Str => e.1)).nodup_iff.mpr hnd
  have hm' : ∀ n, (n, "scripts".toList) ∈ order' → ∃ r, m'.get? n = some r ∧ Plainly r := by
    intro n hn
    rw [← hs n]; exact hm n (hp.mem_iff.mp hn)
  rcases rewritePython_outcome (digest := digest) (plat := plat) hnd hm with ⟨h1, n, r, h2, h3, h4⟩ | ⟨⟨m2, h1⟩, h2⟩
  · rcases rewritePython_outcome (digest := digest) (plat := plat) hnd' hm' with ⟨h1', _⟩ | ⟨_, h2'⟩
    · exact Or.inl ⟨h1, h1'⟩
    · exact absurd h4 (h2' n r (hp.mem_iff.mpr h2) (by rw [← hs n]; exact h3))
  · rcases rewritePython_outcome (digest := digest) (plat := plat) hnd' hm' with ⟨_, n, r, h2', h3', h4'⟩ | ⟨⟨m2', h1'⟩, _⟩
    · exact absurd h4' (h2 n r (hp.mem_iff.mp h2') (by rw [hs n]; exact h3'))
    · refine Or.inr ⟨m2, m2', h1, h1', ?_⟩
      intro n
      obtain ⟨a1, a2⟩ := rewritePython_get hnd h1 n
      obtain ⟨b1, b2⟩ := rewritePython_get hnd' h1' n
      by_cases hn : (n, "scripts".toList) ∈ order
      · obtain ⟨x, hx, hx2⟩ := a1 hn
        obtain ⟨y, hy, hy2⟩ := b1 (hp.mem_iff.mpr hn)
        rw [← hs n, hx2] at hy2
        cases hy2
        rw [hx, hy]
      · rw [a2 hn, b2 (fun h => hn (hp.mem_iff.mp h)), hs n]

theorem remove_same {dst dir : Str} {m m' : Map Ref} (h : Map.Same m m') : Map.Same (removeRecords dst dir m) (removeRecords dst dir m') :=
  (((h.del _).del _).del _).del _

/-! ### compiled files -/

/-- the map with compiled files added -/
theorem addOuts_get {outs : List Ref} (hnd : (outs.map (·.fullName)).Nodup) (m : Map Ref) (n : Str) :
    (∀ o ∈ outs, o.fullName = n → (outs.foldl (fun m r => m.set r.fullName r) m).get? n = some o) ∧
    ((∀ o ∈ outs, o.fullName ≠ n) → (outs.foldl (fun m r => m.set r.fullName r) m).get? n = m.get? n) := by
  induction outs generalizing m with
  | nil => exact ⟨fun o h => (nomatch h), fun _ => rfl⟩
  | cons x outs ih =>
    rw [List.map_cons, List.nodup_cons] at hnd
    obtain ⟨i1, i2⟩ := ih hnd.2 (m.set x.fullName x)
    rw [List.foldl_cons]
    constructor
    · intro o ho hn
      rcases List.mem_cons.mp ho with rfl | ho
      · rw [i2, Map.get?_set, if_pos hn.symm]
        rintro y hy hyn
        exact hnd.1 (List.mem_map.mpr ⟨y, hy, by rw [hyn, hn]⟩)
      · exact i1 o ho hn
    · intro h
      rw [i2 (fun o ho => h o (List.mem_cons_of_mem _ ho)), Map.get?_set, if_neg (fun e : n = x.fullName => h x (List.mem_cons_self ..) e.symm)]

theorem addOuts_same {outs outs' : List Ref} (hnd : (outs.map (·.fullName)).Nodup) (hp : outs'.Perm outs) {m m' : Map Ref} (hs : Map.Same m m') :
    Map.Same (outs.foldl (fun m r => m.set r.fullName r) m) (outs'.foldl (fun m r => m.set r.fullName r) m') := by
  have hnd' : (outs'.map (·.fullName)).Nodup := (hp.map (fun r : Ref => r.fullName)).nodup_iff.mpr hnd
  intro n
  obtain ⟨a1, a2⟩ := addOuts_get hnd m n
  obtain ⟨b1, b2⟩ := addOuts_get hnd' m' n
  by_cases h : ∃ o ∈ outs, o.fullName = n
  · obtain ⟨o, ho, hn⟩ := h
    rw [a1 o ho hn, b1 o (hp.mem_iff.mpr ho) hn]
  · rw [a2 (fun o ho hn => h ⟨o, ho, hn⟩), b2 (fun o ho hn => h ⟨o, hp.mem_iff.mp ho, hn⟩), hs n]

/-- a compiler for which the order of the sources, with names of a kind `S`, does not matter: it fails for all orders, or returns
the same files, with distinct, clean and relative names -/
def Spec.OrderlyOn (S : Str → Prop) (env : Env) : Prop :=
  ∀ t dirs srcs srcs', Spec.Sources srcs → (∀ s ∈ srcs, S s.fullName) → srcs'.Perm srcs →
    (env.compile t dirs srcs = .error () ∧ env.compile t dirs srcs' = .error ()) ∨
    ∃ outs outs', env.compile t dirs srcs = .ok outs ∧ env.compile t dirs srcs' = .ok outs' ∧ outs'.Perm outs ∧
      (outs.map (·.fullName)).Nodup ∧ ∀ o ∈ outs, Spec.Rel o.fullName

/-- the same for all sources -/
def Spec.OrderlyCompiler (env : Env) : Prop := Spec.OrderlyOn (fun _ => True) env

theorem orderly_tidy {env : Env} (h : Spec.OrderlyCompiler env) : Spec.TidyCompiler env := by
  intro t dirs srcs outs hsrc ho
  rcases h t dirs srcs srcs hsrc (fun _ _ => trivial) (List.Perm.refl _) with ⟨e, _⟩ | ⟨o, _, e, _, _, _, hr⟩
  · rw [ho] at e; cases e
  · rw [ho] at e; cases e; exact hr

theorem orderly_distinct {env : Env} (h : Spec.OrderlyCompiler env) : Spec.DistinctCompiler env := by
  intro t dirs srcs outs hsrc ho
  rcases h t dirs srcs srcs hsrc (fun _ _ => trivial) (List.Perm.refl _) with ⟨e, _⟩ | ⟨o, _, e, _, _, hn, _⟩
  · rw [ho] at e; cases e
  · rw [ho] at e; cases e; exact hn

/-! ### `installToVFS` -/

/-- the scripts are there and not rewritten yet when `rewritePython` is called -/
theorem scripts_there {s : Scheme} {d : Str} {m : Map Ref} (hm : ZGood m) (hA : Spec.Apart s d m) {m1 : Map Ref} {types : Map Str}
    (h : RangeRun (spreadBody s d) (RangeState.start m) [] (.ok (m1, types))) (n kind : Str) (hn : (n, kind) ∈ types) :
    ∃ r, m1.get? n = some r ∧ Plainly r := by
  rcases spread_exact hm.wf hA h with ⟨e, _⟩ | ⟨x, y, e, _, ht, _, hm1, htypes⟩
  · cases e
  · cases e
    obtain ⟨k, hk, hmv⟩ := (htypes n kind).mp (Map.get?_of_mem ht hn)
    obtain ⟨r, hr⟩ := get_some hk
    exact ⟨_, (hm1 n _).mpr (Or.inl ⟨k, r, kind, hr, hmv, rfl⟩), renameRef_plainly (hm.file k r hr).2.2⟩

/-- how `installToVFS` ends, after unpacking: with the same files or always with an error -/
theorem spreadRun_det {S : Str → Prop} {env : Env} {plat : Platform} (hs : RelScheme plat.scheme) (hc : Spec.OrderlyOn S env) {maxTime : Int} {dst dir : Str}
    {m : Map Ref} (hm : ZGood m) (hS : BeforeCompile S env plat dst dir m) (hA : Spec.Apart plat.scheme (dataDir dst dir) m) {r r' : Outcome (Map Ref)}
    (h : SpreadRun env plat maxTime dst dir m r) (h' : SpreadRun env plat maxTime dst dir m r') :
    (r = .error ∧ r' = .error) ∨ ∃ a a', r = .ok a ∧ r' = .ok a' ∧ Map.Same a a' := by
  -- a run begins with the loop
  have first : ∀ {r}, SpreadRun env plat maxTime dst dir m r →
      (RangeRun (spreadBody plat.scheme (dataDir dst dir)) (RangeState.start m) [] (.error ()) ∧ r = .error) ∨
      ∃ (m1 : Map Ref) (types order : Map Str), RangeRun (spreadBody plat.scheme (dataDir dst dir)) (RangeState.start m) [] (.ok (m1, types)) ∧ order.Perm types ∧
        ((rewritePython env.digest plat order m1 = none ∧ r = .panic) ∨
         (rewritePython env.digest plat order m1 = some (.error ()) ∧ r = .error) ∨
         ∃ (m2 srcs : Map Ref), rewritePython env.digest plat order m1 = some (.ok m2) ∧ srcs.Perm ((removeRecords dst dir m2).filter isPython) ∧
          ((env.compile maxTime [plat.scheme.pureLib, plat.scheme.platLib] (srcs.map (·.2)) = .error () ∧ r = .error) ∨
           ∃ outs, env.compile maxTime [plat.scheme.pureLib, plat.scheme.platLib] (srcs.map (·.2)) = .ok outs ∧
            r = .ok (outs.foldl (fun m r => m.set r.fullName r) (removeRecords dst dir m2)))) := by
    intro r h
    cases h with
    | spreadFails h => exact Or.inl ⟨h, rfl⟩
    | rewritePanics h1 h2 h3 => exact Or.inr ⟨_, _, _, h1, h2, Or.inl ⟨h3, rfl⟩⟩
    | rewriteFails h1 h2 h3 => exact Or.inr ⟨_, _, _, h1, h2, Or.inr (Or.inl ⟨h3, rfl⟩)⟩
    | compileFails h1 h2 h3 h4 h5 => exact Or.inr ⟨_, _, _, h1, h2, Or.inr (Or.inr ⟨_, _, h3, h4, Or.inl ⟨h5, rfl⟩⟩)⟩
    | done h1 h2 h3 h4 h5 => exact Or.inr ⟨_, _, _, h1, h2, Or.inr (Or.inr ⟨_, _, h3, h4, Or.inr ⟨_, h5, rfl⟩⟩)⟩
  rcases first h with ⟨h1, e⟩ | ⟨m1, types, order, h1, h2, h3⟩
  · rcases first h' with ⟨_, e'⟩ | ⟨m1', types', order', h1', _⟩
    · exact Or.inl ⟨e, e'⟩
    · rcases spread_det hm.wf hA h1 h1' with ⟨_, x⟩ | ⟨_, _, _, _, x, _⟩ <;> cases x
  rcases first h' with ⟨h1', e'⟩ | ⟨m1', types', order', h1', h2', h3'⟩
  · rcases spread_det hm.wf hA h1 h1' with ⟨x, _⟩ | ⟨_, _, _, _, _, x, _⟩ <;> cases x
  obtain ⟨g1, w1⟩ := spread_good hs hm h1 rfl
  obtain ⟨g1', w1'⟩ := spread_good hs hm h1' rfl
  rcases spread_det hm.wf hA h1 h1' with ⟨x, _⟩ | ⟨_, _, _, _, x, y, hsame, htypes⟩
  · cases x
  cases x; cases y
  have hperm : order'.Perm order := h2'.trans ((Map.Same.perm w1' w1 htypes.symm).trans h2.symm)
  have hnd := nodup_perm w1 h2
  have hnd' := nodup_perm w1' h2'
  rcases rewrite_same (digest := env.digest) (plat := plat) hnd hperm hsame
    (fun n hn => scripts_there hm hA h1 n _ (h2.mem_iff.mp hn)) with ⟨q, q'⟩ | ⟨m2, m2', q, q', hs2⟩
  · rcases h3 with ⟨x, _⟩ | ⟨_, x⟩ | ⟨_, _, x, _⟩
    · rw [q] at x; cases x
    · rcases h3' with ⟨y, _⟩ | ⟨_, y⟩ | ⟨_, _, y, _⟩
      · rw [q'] at y; cases y
      · exact Or.inl ⟨x, y⟩
      · rw [q'] at y; cases y
    · rw [q] at x; cases x
  · rcases h3 with ⟨x, _⟩ | ⟨x, _⟩ | ⟨_, srcs, x, hsrcs, h4⟩
    · rw [q] at x; cases x
    · rw [q] at x; cases x
    rcases h3' with ⟨y, _⟩ | ⟨y, _⟩ | ⟨_, srcs', y, hsrcs', h4'⟩
    · rw [q'] at y; cases y
    · rw [q'] at y; cases y
    rw [q] at x; cases x
    rw [q'] at y; cases y
    have p2 := rewrite_good hnd g1.toP q
    have p2' := rewrite_good hnd' g1'.toP q'
    have hrem := remove_same (dst := dst) (dir := dir) hs2
    have hsp : srcs'.Perm srcs :=
      hsrcs'.trans (((Map.Same.perm (remove_good p2').wf (remove_good p2).wf hrem.symm).filter _).trans hsrcs.symm)
    have hkind : ∀ s ∈ srcs.map (·.2), S s.fullName := by
      intro s hsm
      obtain ⟨e, he, rfl⟩ := List.mem_map.mp hsm
      obtain ⟨he1, _⟩ := List.mem_filter.mp (hsrcs.mem_iff.mp he)
      have hg := Map.get?_of_mem (remove_good p2).wf he1
      rw [((remove_good p2).toGood.file _ _ hg).2]
      exact hS _ _ _ _ h1 h2 q _ (some_key hg)
    rcases hc maxTime [plat.scheme.pureLib, plat.scheme.platLib] _ _ (sources_of (remove_good p2) hsrcs) hkind (hsp.map (fun e : Str × Ref => e.2)) with ⟨z, z'⟩ | ⟨outs, outs', z, z', hop, hon, _⟩
    · rcases h4 with ⟨_, e⟩ | ⟨_, x, _⟩
      · rcases h4' with ⟨_, e'⟩ | ⟨_, x, _⟩
        · exact Or.inl ⟨e, e'⟩
        · rw [z'] at x; cases x
      · rw [z] at x; cases x
    · rcases h4 with ⟨x, _⟩ | ⟨_, x, e⟩
      · rw [z] at x; cases x
      rcases h4' with ⟨y, _⟩ | ⟨_, y, e'⟩
      · rw [z'] at y; cases y
      rw [z] at x; cases x
      rw [z'] at y; cases y
      exact Or.inr ⟨_, _, e, e', addOuts_same hon hop hrem⟩

/-! ### the layer -/

theorem mapM_perm {f : α → Option β} {l l' : List α} (h : l.Perm l') :
    (l.mapM f = none ∧ l'.mapM f = none) ∨ ∃ r r', l.mapM f = some r ∧ l'.mapM f = some r' ∧ r.Perm r' := by
  induction h with
  | nil => exact Or.inr ⟨[], [], rfl, rfl, List.Perm.refl _⟩
  | cons x _ ih =>
    rw [List.mapM_cons, List.mapM_cons]
    cases f x with
    | none => exact Or.inl ⟨rfl, rfl⟩
    | some y =>
      rcases ih with ⟨h1, h2⟩ | ⟨r, r', h1, h2, h3⟩
      · rw [h1, h2]; exact Or.inl ⟨rfl, rfl⟩
      · rw [h1, h2]; exact Or.inr ⟨_, _, rfl, rfl, h3.cons y⟩
  | swap x y l =>
    rw [List.mapM_cons, List.mapM_cons, List.mapM_cons, List.mapM_cons]
    cases f x with
    | none => cases f y <;> exact Or.inl ⟨rfl, rfl⟩
    | some a =>
      cases f y with
      | none => exact Or.inl ⟨rfl, rfl⟩
      | some b =>
        cases l.mapM f with
        | none => exact Or.inl ⟨rfl, rfl⟩
        | some r => exact Or.inr ⟨_, _, rfl, rfl, List.Perm.swap ..⟩
  | trans _ _ ih1 ih2 =>
    rcases ih1 with ⟨h1, h2⟩ | ⟨r, r', h1, h2, h3⟩
    · rcases ih2 with ⟨_, h5⟩ | ⟨_, _, h5, _⟩
      · exact Or.inl ⟨h1, h5⟩
      · rw [h2] at h5; cases h5
    · rcases ih2 with ⟨h4, _⟩ | ⟨_, r'', h4, h5, h6⟩
      · rw [h2] at h4; cases h4
      · rw [h2] at h4; cases h4
        exact Or.inr ⟨_, _, h1, h5, h3.trans h6⟩

/-- the layer does not depend on the order of the files -/
theorem layerOf_perm {w : World} (hsort : SortSlice w.sortSlice) (plat : Platform) (maxTime : Int) {m m' : Map Ref} (hm : Good m)
    (hp : m.Perm m') : layerOf w plat maxTime m = layerOf w plat maxTime m' := by
  unfold layerOf
  rcases mapM_perm (f := fun e : Str × Ref => chown plat e.2) hp with ⟨h1, h2⟩ | ⟨r, r', h1, h2, h3⟩
  · rw [h1, h2]
  · rw [h1, h2]
    obtain ⟨hn, hof, _⟩ := mapM_chown h1
    refine C53_order_independent hsort hsort _ _ ?_ ?_ h3
    · intro f hf
      have : f.name ∈ r.map (·.name) := List.mem_map.mpr ⟨f, hf, rfl⟩
      rw [hn, hm.names] at this
      obtain ⟨x, hx⟩ := get_some this
      exact (hm.file _ x hx).1.1
    · rw [hn, hm.names]; exact hm.wf

/-- a hook for which the order of the files does not matter: for the same files it fails, or not, and leaves the same
files behind, under their own, clean and relative names -/
def Spec.OrderlyHook (hook : Hook) : Prop :=
  ∀ t m m' d, Good m → Good m' → Map.Same m m' →
    (hook t m d = .error () ∧ hook t m' d = .error ()) ∨
    ∃ a a', hook t m d = .ok a ∧ hook t m' d = .ok a' ∧ Map.Same a a' ∧ Good a ∧ Good a'

theorem orderly_hook {hook : Hook} (h : Spec.OrderlyHook hook) : Spec.TidyHook hook := by
  intro t m d m' hm he
  rcases h t m m d hm hm (Map.Same.refl _) with ⟨e, _⟩ | ⟨a, _, e, _, _, ha, _⟩
  · rw [he] at e; cases e
  · rw [he] at e; cases e; exact ha

/-- the loop for the parent directories on the same maps -/
theorem parents_det {t : Int} {m m' : Map Ref} (hm : Good m) (hm' : Good m') (hs : Map.Same m m') {r r' : Except Unit (Map Ref × Unit)}
    (h : RangeRun (parentsBody t) (RangeState.start m) () r) (h' : RangeRun (parentsBody t) (RangeState.start m') () r') :
    ∃ a a', r = .ok (a, ()) ∧ r' = .ok (a', ()) ∧ Map.Same a a' ∧ Good a ∧ Good a' := by
  have rel : ∀ {m : Map Ref}, Good m → ∀ k ∈ m.keys, Spec.Rel k := by
    intro m hm k hk
    obtain ⟨x, hx⟩ := get_some hk
    exact (hm.file k x hx).1
  have good : ∀ {m : Map Ref} {a : Map Ref}, Good m → RangeRun (parentsBody t) (RangeState.start m) () (.ok (a, ())) → Good a := by
    intro m a hm h
    obtain ⟨b, he, kept, made, others⟩ := C46_loop t m (rel hm) _ h
    cases he
    refine ⟨RangeRun.inv (fun m _ => m.WF) (fun k m x ops x' _ hm _ => MapOp.foldl_wf hm ops) h (RangeState.Pending.start m) hm.wf a () rfl, ?_⟩
    intro k x hx
    cases hg : m.get? k with
    | some y => rw [kept k y hg] at hx; cases hx; exact hm.file k x hg
    | none =>
      by_cases hex : ∃ j ∈ m.keys, Spec.Parent k j
      · rw [made k hg hex] at hx
        cases hx
        obtain ⟨j, hj, hpj⟩ := hex
        exact ⟨parent_rel hpj (rel hm j hj), rfl⟩
      · rw [others k hg hex] at hx; cases hx
  obtain ⟨a, he, kept, made, others⟩ := C46_loop t m (rel hm) _ h
  obtain ⟨a', he', kept', made', others'⟩ := C46_loop t m' (rel hm') _ h'
  subst he; subst he'
  refine ⟨a, a', rfl, rfl, ?_, good hm h, good hm' h'⟩
  intro n
  have hkeys : ∀ k, k ∈ m.keys ↔ k ∈ m'.keys := by
    intro k; rw [Map.mem_keys_iff, Map.mem_keys_iff, hs k]
  cases hg : m.get? n with
  | some x => rw [kept n x hg, kept' n x (by rw [← hs n]; exact hg)]
  | none =>
    have hg' : m'.get? n = none := by rw [← hs n]; exact hg
    by_cases hex : ∃ j ∈ m.keys, Spec.Parent n j
    · rw [made n hg hex, made' n hg' (by obtain ⟨j, hj, hp⟩ := hex; exact ⟨j, (hkeys j).mp hj, hp⟩)]
    · rw [others n hg hex, others' n hg' (by rintro ⟨j, hj, hp⟩; exact hex ⟨j, (hkeys j).mpr hj, hp⟩)]

end Bdist
