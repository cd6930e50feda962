import Verif.Bdist.Install
import Verif.Bdist.PropsZip
import Verif.Python.PropsInspect
/-!
The loop that moves the files of the `.data` directory, over all orders: what the final map is.
-/
namespace Bdist
open Go Fsutil Python

namespace Spec

/-- the kinds of data and their directories -/
def schemeDirs (s : Scheme) : List (Str × Str) :=
  [("purelib".toList, s.pureLib), ("platlib".toList, s.platLib), ("headers".toList, s.headers), ("scripts".toList, s.scripts),
   ("data".toList, s.data)]

/-- `k` lies in the directory `d` -/
def In (d k : Str) : Prop := ∃ x, k = d ++ '/' :: x

/-- the file `k` of the data directory `d` is of the given kind and belongs at `n`: `d/KIND/REST` goes to `DIR/REST`, where `DIR`
is the directory for `KIND`; `d/KIND` itself goes to `DIR` -/
def Moves (s : Scheme) (d k n kind : Str) : Prop :=
  ∃ rest dir, (k = d ++ '/' :: kind ∧ rest = [] ∨ k = d ++ '/' :: (kind ++ '/' :: rest)) ∧ (kind, dir) ∈ schemeDirs s ∧
    n = pathJoin [dir, rest]

end Spec

theorem schemeDir_iff (s : Scheme) (key dir : Str) : schemeDir s key = some dir ↔ (key, dir) ∈ Spec.schemeDirs s := by
  unfold schemeDir Spec.schemeDirs
  simp only [List.mem_cons, Prod.mk.injEq, List.not_mem_nil, or_false]
  constructor
  · intro h
    by_cases h1 : key = "purelib".toList
    · rw [if_pos h1] at h; exact Or.inl ⟨h1, (Option.some.inj h).symm⟩
    rw [if_neg h1] at h
    by_cases h2 : key = "platlib".toList
    · rw [if_pos h2] at h; exact Or.inr (Or.inl ⟨h2, (Option.some.inj h).symm⟩)
    rw [if_neg h2] at h
    by_cases h3 : key = "headers".toList
    · rw [if_pos h3] at h; exact Or.inr (Or.inr (Or.inl ⟨h3, (Option.some.inj h).symm⟩))
    rw [if_neg h3] at h
    by_cases h4 : key = "scripts".toList
    · rw [if_pos h4] at h; exact Or.inr (Or.inr (Or.inr (Or.inl ⟨h4, (Option.some.inj h).symm⟩)))
    rw [if_neg h4] at h
    by_cases h5 : key = "data".toList
    · rw [if_pos h5] at h; exact Or.inr (Or.inr (Or.inr (Or.inr ⟨h5, (Option.some.inj h).symm⟩)))
    rw [if_neg h5] at h
    cases h
  · rintro (⟨rfl, rfl⟩ | ⟨rfl, rfl⟩ | ⟨rfl, rfl⟩ | ⟨rfl, rfl⟩ | ⟨rfl, rfl⟩) <;> rfl

theorem kind_plain {s : Scheme} {key dir : Str} (h : (key, dir) ∈ Spec.schemeDirs s) : '/' ∉ key := by
  unfold Spec.schemeDirs at h
  simp only [List.mem_cons, Prod.mk.injEq, List.not_mem_nil, or_false] at h
  rcases h with h | h | h | h | h <;> (rw [h.1]; decide)

theorem schemeDirs_fun {s : Scheme} {key dir dir' : Str} (h : (key, dir) ∈ Spec.schemeDirs s) (h' : (key, dir') ∈ Spec.schemeDirs s) :
    dir = dir' := by
  rw [← schemeDir_iff] at h h'
  rw [h] at h'
  exact Option.some.inj h'

theorem keyRest_plain {kind : Str} (h : '/' ∉ kind) : keyRest kind = (kind, []) := by
  unfold keyRest
  rw [takeWhile_no h]
  have : ∀ s : Str, '/' ∉ s → s.dropWhile (· ≠ '/') = [] := by
    intro s hs
    induction s with
    | nil => rfl
    | cons c s ih =>
      simp only [List.mem_cons, not_or] at hs
      rw [List.dropWhile_cons, if_pos (by simpa using Ne.symm hs.1), ih hs.2]
  rw [this kind h]; rfl

theorem keyRest_slash {kind rest : Str} (h : '/' ∉ kind) : keyRest (kind ++ '/' :: rest) = (kind, rest) := by
  unfold keyRest
  rw [(takeWhile_ne h).1, (takeWhile_ne h).2]; rfl

theorem keyRest_eq (rel : Str) : '/' ∉ (keyRest rel).1 ∧
    (rel = (keyRest rel).1 ∧ (keyRest rel).2 = [] ∨ rel = (keyRest rel).1 ++ '/' :: (keyRest rel).2) := by
  by_cases h : '/' ∈ rel
  · obtain ⟨a, b, rfl, ha⟩ : ∃ a b, rel = a ++ '/' :: b ∧ '/' ∉ a := by
      induction rel with
      | nil => cases h
      | cons c s ih =>
        by_cases hc : c = '/'
        · subst hc; exact ⟨[], s, rfl, by simp⟩
        · obtain ⟨a, b, rfl, ha⟩ := ih ((List.mem_cons.mp h).resolve_left (Ne.symm hc))
          exact ⟨c :: a, b, rfl, by simp [ha, Ne.symm hc]⟩
    rw [keyRest_slash ha]
    exact ⟨ha, Or.inr rfl⟩
  · rw [keyRest_plain h]
    exact ⟨h, Or.inl ⟨rfl, rfl⟩⟩

theorem hasPrefix_in (d k : Str) : hasPrefix k (d ++ ['/']) = true ↔ Spec.In d k := by
  rw [Python.hasPrefix_iff]
  constructor
  · rintro ⟨x, hx⟩; exact ⟨x, by rw [← hx]; simp⟩
  · rintro ⟨x, hx⟩; exact ⟨x, by rw [hx]; simp⟩

theorem trimPrefix_in (d x : Str) : trimPrefix (d ++ '/' :: x) (d ++ ['/']) = x := by
  have h : d ++ '/' :: x = (d ++ ['/']) ++ x := by simp
  rw [h]
  unfold trimPrefix
  rw [if_pos (by rw [Python.hasPrefix_iff]; exact ⟨x, rfl⟩), List.drop_left]

/-- the three cases of the body of the loop -/
theorem spreadBody_skip {s : Scheme} {d k : Str} (h : ¬ Spec.In d k) (m : Map Ref) (types : Map Str) :
    spreadBody s d k m types = .ok ([], types) := by
  unfold spreadBody
  rw [← hasPrefix_in, Bool.not_eq_true] at h
  rw [h]; rfl

theorem spreadBody_moves {s : Scheme} {d k n kind : Str} (h : Spec.Moves s d k n kind) {m : Map Ref} {r : Ref} (hr : m.get? k = some r)
    (types : Map Str) :
    spreadBody s d k m types = .ok ([.del k, .set n (renameRef n r)], types.set n kind) := by
  obtain ⟨rest, dir, hk, hd, hn⟩ := h
  have hp := kind_plain hd
  have hin : hasPrefix k (d ++ ['/']) = true := by
    rw [hasPrefix_in]
    rcases hk with ⟨h, _⟩ | h
    · exact ⟨_, h⟩
    · exact ⟨_, h⟩
  have hkr : keyRest (trimPrefix k (d ++ ['/'])) = (kind, rest) := by
    rcases hk with ⟨rfl, rfl⟩ | rfl
    · rw [trimPrefix_in, keyRest_plain hp]
    · rw [trimPrefix_in, keyRest_slash hp]
  unfold spreadBody
  simp only [hin, hkr, Bool.not_true, Bool.false_eq_true, if_false, (schemeDir_iff s kind dir).mpr hd, rename, hr, ← hn]

theorem spreadBody_fails {s : Scheme} {d k : Str} (hin : Spec.In d k) (h : ¬ ∃ n kind, Spec.Moves s d k n kind) (m : Map Ref) (types : Map Str) :
    spreadBody s d k m types = .error () := by
  have hin' : hasPrefix k (d ++ ['/']) = true := (hasPrefix_in d k).mpr hin
  obtain ⟨x, rfl⟩ := hin
  unfold spreadBody
  simp only [hin', Bool.not_true, Bool.false_eq_true, if_false, trimPrefix_in]
  cases hs : schemeDir s (keyRest x).1 with
  | none => rfl
  | some dir =>
    exfalso
    apply h
    refine ⟨_, _, (keyRest x).2, dir, ?_, (schemeDir_iff _ _ _).mp hs, rfl⟩
    rcases (keyRest_eq x).2 with ⟨h1, h2⟩ | h1
    · exact Or.inl ⟨by rw [← h1], h2⟩
    · exact Or.inr (by rw [← h1])

theorem Moves.in_ {s : Scheme} {d k n kind : Str} (h : Spec.Moves s d k n kind) : Spec.In d k := by
  obtain ⟨rest, dir, hk, _⟩ := h
  rcases hk with ⟨h, _⟩ | h
  · exact ⟨_, h⟩
  · exact ⟨_, h⟩

theorem Moves.fun_ {s : Scheme} {d k n kind n' kind' : Str} (h : Spec.Moves s d k n kind) (h' : Spec.Moves s d k n' kind') :
    n = n' ∧ kind = kind' := by
  obtain ⟨rest, dir, hk, hd, rfl⟩ := h
  obtain ⟨rest', dir', hk', hd', rfl⟩ := h'
  have hp := kind_plain hd
  have hp' := kind_plain hd'
  have key : ∀ {kind rest : Str}, '/' ∉ kind → (k = d ++ '/' :: kind ∧ rest = [] ∨ k = d ++ '/' :: (kind ++ '/' :: rest)) →
      keyRest (trimPrefix k (d ++ ['/'])) = (kind, rest) := by
    intro kind rest hp hk
    rcases hk with ⟨rfl, rfl⟩ | rfl
    · rw [trimPrefix_in, keyRest_plain hp]
    · rw [trimPrefix_in, keyRest_slash hp]
  have e1 := key hp hk
  rw [key hp' hk'] at e1
  simp only [Prod.mk.injEq] at e1
  obtain ⟨rfl, rfl⟩ := e1
  rw [schemeDirs_fun hd hd']
  exact ⟨rfl, rfl⟩

/-- the destinations of the files of the map `m` in the data directory are outside the data directory and distinct -/
structure Spec.Apart (s : Scheme) (d : Str) (m : Map Ref) : Prop where
  outside : ∀ k ∈ m.keys, ∀ n kind, Spec.Moves s d k n kind → ¬ Spec.In d n
  distinct : ∀ k ∈ m.keys, ∀ k' ∈ m.keys, ∀ n kind kind', Spec.Moves s d k n kind → Spec.Moves s d k' n kind' → k = k'

/-- the state of the loop: the files of the data directory that are not in `must` have been moved -/
structure SpreadInv (s : Scheme) (d : Str) (m : Map Ref) (st : RangeState Ref) (types : Map Str) : Prop where
  must : ∀ k ∈ st.must, k ∈ m.keys
  may : ∀ k ∈ st.may, ¬ Spec.In d k
  moved : ∀ k ∈ m.keys, Spec.In d k → k ∉ st.must → ∃ n kind, Spec.Moves s d k n kind
  waiting : ∀ k ∈ st.must, Spec.In d k → st.m.get? k = m.get? k
  gone : ∀ k, Spec.In d k → k ∉ st.must → st.m.get? k = none
  there : ∀ k r n kind, m.get? k = some r → Spec.Moves s d k n kind → k ∉ st.must →
    st.m.get? n = some (renameRef n r) ∧ types.get? n = some kind
  rest : ∀ n, ¬ Spec.In d n → (¬ ∃ k kind, k ∈ m.keys ∧ k ∉ st.must ∧ Spec.Moves s d k n kind) → st.m.get? n = m.get? n
  kinds : ∀ n, (¬ ∃ k kind, k ∈ m.keys ∧ k ∉ st.must ∧ Spec.Moves s d k n kind) → types.get? n = none
  wf : st.m.WF ∧ types.WF

theorem spread_step {s : Scheme} {d : Str} {m : Map Ref} (hA : Spec.Apart s d m) {st : RangeState Ref} {types : Map Str}
    (hi : SpreadInv s d m st types) {k : Str} (hk : k ∈ st.must ∨ k ∈ st.may) {ops : List (MapOp Ref)} {types' : Map Str}
    (hb : spreadBody s d k st.m types = .ok (ops, types')) : SpreadInv s d m (ops.foldl RangeState.apply (st.visit k)) types' := by
  by_cases hin : Spec.In d k
  · -- a file of the data directory
    have hkm : k ∈ st.must := hk.resolve_right (fun h => hi.may k h hin)
    have hkk := hi.must k hkm
    obtain ⟨r, hr⟩ : ∃ r, m.get? k = some r := by
      rw [Map.mem_keys_iff] at hkk
      cases h : m.get? k with
      | none => exact absurd h hkk
      | some r => exact ⟨r, rfl⟩
    have hrs : st.m.get? k = some r := by rw [hi.waiting k hkm hin, hr]
    by_cases hmv : ∃ n kind, Spec.Moves s d k n kind
    · obtain ⟨n, kind, hmv⟩ := hmv
      rw [spreadBody_moves hmv hrs] at hb
      simp only [Except.ok.injEq, Prod.mk.injEq] at hb
      obtain ⟨rfl, rfl⟩ := hb
      have hnin : ¬ Spec.In d n := hA.outside k hkk n kind hmv
      have hnk : n ≠ k := fun e => hnin (e ▸ hin)
      have emust : ([MapOp.del k, .set n (renameRef n r)].foldl RangeState.apply (st.visit k)).must = st.must.filter (· ≠ k) := by
        show ((st.must.filter (· ≠ k)).filter (· ≠ k)) = _
        rw [List.filter_filter]; simp
      have em : ([MapOp.del k, .set n (renameRef n r)].foldl RangeState.apply (st.visit k)).m = (st.m.del k).set n (renameRef n r) := rfl
      have emay : ∀ j, j ∈ ([MapOp.del k, .set n (renameRef n r)].foldl RangeState.apply (st.visit k)).may → j ∈ st.may ∨ j = n := by
        intro j hj
        have : j ∈ (if n ∈ (st.m.del k).keys then (st.may.filter (· ≠ k)).filter (· ≠ k) else n :: (st.may.filter (· ≠ k)).filter (· ≠ k)) := hj
        split at this
        · exact Or.inl (List.mem_filter.mp (List.mem_filter.mp this).1).1
        · rcases List.mem_cons.mp this with h | h
          · exact Or.inr h
          · exact Or.inl (List.mem_filter.mp (List.mem_filter.mp h).1).1
      have hget : ∀ j, ((st.m.del k).set n (renameRef n r)).get? j = if j = n then some (renameRef n r) else if j = k then none else st.m.get? j := by
        intro j; rw [Map.get?_set, Map.get?_del]
      have hnotmust : ∀ j, j ∉ st.must.filter (· ≠ k) ↔ j ∉ st.must ∨ j = k := by
        intro j
        simp only [List.mem_filter, decide_eq_true_eq, not_and, Classical.not_not]
        constructor
        · intro h
          by_cases hj : j ∈ st.must
          · exact Or.inr (h hj)
          · exact Or.inl hj
        · rintro (h | h)
          · exact fun x => absurd x h
          · exact fun _ => h
      have hother : ∀ j kd, j ∈ m.keys → Spec.Moves s d j n kd → j = k :=
        fun j kd hj hm' => hA.distinct j hj k hkk n kd kind hm' hmv
      refine ⟨?_, ?_, ?_, ?_, ?_, ?_, ?_, ?_, ?_⟩
      · intro j hj
        rw [emust] at hj
        exact hi.must j (List.mem_filter.mp hj).1
      · intro j hj
        rcases emay j hj with h | rfl
        · exact hi.may j h
        · exact hnin
      · intro j hj hjin hjm
        rw [emust, hnotmust] at hjm
        rcases hjm with h | rfl
        · exact hi.moved j hj hjin h
        · exact ⟨n, kind, hmv⟩
      · intro j hj hjin
        rw [emust] at hj
        obtain ⟨hj1, hj2⟩ := List.mem_filter.mp hj
        simp only [decide_eq_true_eq] at hj2
        rw [em, hget, if_neg (fun e : j = n => hnin (e ▸ hjin)), if_neg hj2]
        exact hi.waiting j hj1 hjin
      · intro j hjin hjm
        rw [emust, hnotmust] at hjm
        rw [em, hget, if_neg (fun e : j = n => hnin (e ▸ hjin))]
        by_cases hjk : j = k
        · rw [if_pos hjk]
        · rw [if_neg hjk]
          exact hi.gone j hjin (hjm.resolve_right hjk)
      · intro j rj nj kj hgj hmj hjm
        rw [emust, hnotmust] at hjm
        rw [em, hget]
        by_cases hjk : j = k
        · subst hjk
          obtain ⟨rfl, rfl⟩ := Moves.fun_ hmv hmj
          rw [hr] at hgj
          cases hgj
          rw [if_pos rfl, Map.get?_set, if_pos rfl]
          exact ⟨rfl, rfl⟩
        · have hjkeys : j ∈ m.keys := by rw [Map.mem_keys_iff, hgj]; simp
          have hne : nj ≠ n := by
            rintro rfl
            exact hjk (hother j kj hjkeys hmj)
          have hnjk : nj ≠ k := by
            rintro rfl
            exact hA.outside j hjkeys nj kj hmj hin
          rw [if_neg hne, if_neg hnjk, Map.get?_set, if_neg hne]
          exact hi.there j rj nj kj hgj hmj (hjm.resolve_right hjk)
      · intro j hjin hno
        have hne : j ≠ n := by
          rintro rfl
          exact hno ⟨k, kind, hkk, by rw [emust, hnotmust]; exact Or.inr rfl, hmv⟩
        rw [em, hget, if_neg hne, if_neg (fun e : j = k => hjin (e ▸ hin))]
        refine hi.rest j hjin ?_
        rintro ⟨i, ki, h1, h2, h3⟩
        exact hno ⟨i, ki, h1, by rw [emust, hnotmust]; exact Or.inl h2, h3⟩
      · intro j hno
        have hne : j ≠ n := by
          rintro rfl
          exact hno ⟨k, kind, hkk, by rw [emust, hnotmust]; exact Or.inr rfl, hmv⟩
        rw [Map.get?_set, if_neg hne]
        refine hi.kinds j ?_
        rintro ⟨i, ki, h1, h2, h3⟩
        exact hno ⟨i, ki, h1, by rw [emust, hnotmust]; exact Or.inl h2, h3⟩
      · exact ⟨(hi.wf.1.del k).set n _, hi.wf.2.set n kind⟩
    · rw [spreadBody_fails hin hmv] at hb; cases hb
  · rw [spreadBody_skip hin] at hb
    simp only [Except.ok.injEq, Prod.mk.injEq] at hb
    obtain ⟨rfl, rfl⟩ := hb
    have hmust : ∀ j, Spec.In d j → (j ∈ st.must.filter (· ≠ k) ↔ j ∈ st.must) := by
      intro j hj
      simp only [List.mem_filter, decide_eq_true_eq, and_iff_left_iff_imp]
      rintro _ rfl
      exact hin hj
    show SpreadInv s d m ⟨st.m, st.must.filter (· ≠ k), st.may.filter (· ≠ k)⟩ types
    have hex : ∀ n, (¬ ∃ j kind, j ∈ m.keys ∧ j ∉ st.must.filter (· ≠ k) ∧ Spec.Moves s d j n kind) →
        ¬ ∃ j kind, j ∈ m.keys ∧ j ∉ st.must ∧ Spec.Moves s d j n kind := by
      rintro n hno ⟨j, kd, h1, h2, h3⟩
      exact hno ⟨j, kd, h1, fun h => h2 (List.mem_filter.mp h).1, h3⟩
    exact ⟨fun j hj => hi.must j (List.mem_filter.mp hj).1, fun j hj => hi.may j (List.mem_filter.mp hj).1,
      fun j hj hjin hjm => hi.moved j hj hjin (fun h => hjm ((hmust j hjin).mpr h)),
      fun j hj hjin => hi.waiting j ((hmust j hjin).mp hj) hjin,
      fun j hjin hjm => hi.gone j hjin (fun h => hjm ((hmust j hjin).mpr h)),
      fun j r n kd h1 h2 h3 => hi.there j r n kd h1 h2 (fun h => h3 ((hmust j (Moves.in_ h2)).mpr h)),
      fun n hn hno => hi.rest n hn (hex n hno), fun n hno => hi.kinds n (hex n hno), hi.wf⟩

theorem spread_run {s : Scheme} {d : Str} {m : Map Ref} (hA : Spec.Apart s d m) {st : RangeState Ref} {types : Map Str}
    {r : Except Unit (Map Ref × Map Str)} (h : RangeRun (spreadBody s d) st types r) (hi : SpreadInv s d m st types) :
    (r = .error () ∧ ∃ k ∈ m.keys, Spec.In d k ∧ ¬ ∃ n kind, Spec.Moves s d k n kind) ∨
    ∃ st' types', SpreadInv s d m st' types' ∧ st'.must = [] ∧ r = .ok (st'.m, types') := by
  induction h with
  | done he => exact Or.inr ⟨_, _, hi, he, rfl⟩
  | @fail st types k hk hb =>
    refine Or.inl ⟨rfl, k, ?_⟩
    by_cases hin : Spec.In d k
    · have hkm : k ∈ st.must := hk.resolve_right (fun h => hi.may k h hin)
      have hkk := hi.must k hkm
      refine ⟨hkk, hin, ?_⟩
      rintro ⟨n, kind, hmv⟩
      rw [Map.mem_keys_iff, ← hi.waiting k hkm hin] at hkk
      cases hr : st.m.get? k with
      | none => exact hkk hr
      | some r => rw [spreadBody_moves hmv hr] at hb; cases hb
    · rw [spreadBody_skip hin] at hb; cases hb
  | step hk hb _ ih => exact ih (spread_step hA hi hk hb)

theorem spread_start (s : Scheme) (d : Str) {m : Map Ref} (hw : m.WF) : SpreadInv s d m (RangeState.start m) [] := by
  have hnone : ∀ k, k ∉ m.keys → m.get? k = none := by
    intro k hk
    rw [Map.mem_keys_iff, Classical.not_not] at hk
    exact hk
  refine ⟨fun k h => h, fun k h => (nomatch h), fun k hk _ hn => absurd hk hn, fun k _ _ => rfl, fun k _ hn => hnone k hn,
    fun k r n kd hr _ hn => ?_, fun n _ _ => rfl, fun n _ => rfl, hw, Map.WF.nil⟩
  rw [hnone k hn] at hr
  cases hr

/-- The result of the loop for any order, when the destinations are apart: an error iff some file of the data directory is of
no known kind; otherwise the files of the data directory are at their destinations, replacing what was there, and all
other files are where they were. -/
theorem spread_exact {s : Scheme} {d : Str} {m : Map Ref} (hw : m.WF) (hA : Spec.Apart s d m) {r : Except Unit (Map Ref × Map Str)}
    (h : RangeRun (spreadBody s d) (RangeState.start m) [] r) :
    (r = .error () ∧ ∃ k ∈ m.keys, Spec.In d k ∧ ¬ ∃ n kind, Spec.Moves s d k n kind) ∨
    ∃ m' types, r = .ok (m', types) ∧ m'.WF ∧ types.WF ∧
      (∀ k ∈ m.keys, Spec.In d k → ∃ n kind, Spec.Moves s d k n kind) ∧
      (∀ n ref, m'.get? n = some ref ↔
        (∃ k r kind, m.get? k = some r ∧ Spec.Moves s d k n kind ∧ ref = renameRef n r) ∨
        (¬ Spec.In d n ∧ (¬ ∃ k kind, k ∈ m.keys ∧ Spec.Moves s d k n kind) ∧ m.get? n = some ref)) ∧
      (∀ n kind, types.get? n = some kind ↔ ∃ k ∈ m.keys, Spec.Moves s d k n kind) := by
  rcases spread_run hA h (spread_start s d hw) with h | ⟨st, types, hi, hm, rfl⟩
  · exact Or.inl h
  have hno : ∀ k, k ∉ st.must := by intro k; rw [hm]; simp
  have hget : ∀ k, k ∈ m.keys → ∃ r, m.get? k = some r := by
    intro k hk
    rw [Map.mem_keys_iff] at hk
    cases hr : m.get? k with
    | none => exact absurd hr hk
    | some r => exact ⟨r, rfl⟩
  have hkey : ∀ {k r}, m.get? k = some r → k ∈ m.keys := by intro k r hr; rw [Map.mem_keys_iff, hr]; simp
  refine Or.inr ⟨st.m, types, rfl, hi.wf.1, hi.wf.2, fun k hk hin => hi.moved k hk hin (hno k), ?_, ?_⟩
  · intro n ref
    constructor
    · intro hr
      by_cases hex : ∃ k kind, k ∈ m.keys ∧ Spec.Moves s d k n kind
      · obtain ⟨k, kind, hk, hmv⟩ := hex
        obtain ⟨r, hrk⟩ := hget k hk
        have := (hi.there k r n kind hrk hmv (hno k)).1
        rw [hr] at this
        exact Or.inl ⟨k, r, kind, hrk, hmv, Option.some.inj this⟩
      · have hnin : ¬ Spec.In d n := by
          intro hin
          rw [hi.gone n hin (hno n)] at hr
          cases hr
        refine Or.inr ⟨hnin, hex, ?_⟩
        rw [← hi.rest n hnin (fun ⟨k, kd, h1, _, h3⟩ => hex ⟨k, kd, h1, h3⟩)]
        exact hr
    · rintro (⟨k, r, kind, hr, hmv, rfl⟩ | ⟨h1, h2, h3⟩)
      · exact (hi.there k r n kind hr hmv (hno k)).1
      · rw [hi.rest n h1 (fun ⟨k, kd, a, _, b⟩ => h2 ⟨k, kd, a, b⟩)]
        exact h3
  · intro n kind
    constructor
    · intro ht
      by_cases hex : ∃ k kind, k ∈ m.keys ∧ Spec.Moves s d k n kind
      · obtain ⟨k, kind', hk, hmv⟩ := hex
        obtain ⟨r, hrk⟩ := hget k hk
        have := (hi.there k r n kind' hrk hmv (hno k)).2
        rw [ht] at this
        cases this
        exact ⟨k, hk, hmv⟩
      · rw [hi.kinds n (fun ⟨k, kd, h1, _, h3⟩ => hex ⟨k, kd, h1, h3⟩)] at ht
        cases ht
    · rintro ⟨k, hk, hmv⟩
      obtain ⟨r, hrk⟩ := hget k hk
      exact (hi.there k r n kind hrk hmv (hno k)).2

end Bdist
