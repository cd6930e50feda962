import Verif.Squash.Alias
import Verif.Squash.PropsReadDir
/-! C124: what a caller does with the entries it got, and the entries to come. -/
namespace Squash.Alias
open Go Spec

/-- the sizes of the calls of `ReadDir` among the operations -/
def reads : List Op → List Int
  | [] => []
  | .read n :: ops => n :: reads ops
  | _ :: ops => reads ops

/-- what these calls return when nothing is done in between (the model of `ReadDir` of which C71 says that it is right) -/
def alone (srt : (DirEnt → DirEnt → Bool) → List DirEnt → List DirEnt) (kids : Kids) : Reader → List Int → List (Except IOErr (List DirEnt))
  | _, [] => []
  | r, n :: ns => (r.readDir srt kids n).2 :: alone srt kids (r.readDir srt kids n).1 ns

def plain : Except IOErr (List DirEnt) → Except IOErr (List (Option DirEnt))
  | .ok l => .ok (l.map some)
  | .error e => .error e

theorem plain_inj : ∀ a b, plain a = plain b → a = b := by
  intro a b h
  cases a <;> cases b <;> simp only [plain, Except.ok.injEq, Except.error.injEq, reduceCtorEq] at h
  · rw [h]
  · rw [List.map_inj_right (fun _ _ e => Option.some.inj e)] at h
    rw [h]

/-- the operation leaves what has not been delivered as it is -/
def Spares (m : Mem) : Op → Prop
  | .read _ => True
  | o => (m.op o).arr.drop m.pos = m.arr.drop m.pos

def AllSpare : Mem → List Op → Prop
  | _, [] => True
  | m, o :: ops => Spares m o ∧ AllSpare (m.op o) ops

/-- the memory agrees with the handle as far as the entries to come are concerned -/
structure Agree (srt : (DirEnt → DirEnt → Bool) → List DirEnt → List DirEnt) (kids : Kids) (L : List DirEnt) (m : Mem) (r : Reader) : Prop where
  listing : Listing srt kids L r
  len : m.len = L.length
  pos : m.pos = r.pos
  rest : ∃ t, m.arr.drop m.pos = (L.drop m.pos).map some ++ t

/-- `ReadDir` in terms of what it delivers: `k` entries from the current position on -/
theorem memRead {m : Mem} (hp : m.pos ≤ m.len) (n : Int) : ∃ got k, k = (if 0 < n then min n.toNat (m.len - m.pos) else m.len - m.pos) ∧
    (m.readDir n).1 = ⟨m.arr, m.len, m.pos + k, got⟩ ∧
    (got = m.got ∨ got = m.got ++ [⟨0, 0, 0⟩] ∨ ∃ c, got = m.got ++ [⟨m.pos, k, c⟩]) ∧
    (m.readDir n).2 = if 0 < n ∧ k = 0 then .error .eof else .ok ((m.arr.drop m.pos).take k) := by
  unfold Mem.readDir
  simp only
  have hpos : (if m.pos > m.len then m.len else m.pos) = m.pos := if_neg (by omega)
  rw [hpos]
  have hret : (if n > 0 ∧ n < ((m.len - m.pos : Nat) : Int) then (⟨m.pos, n.toNat, m.arr.length - m.pos⟩ : Slice)
      else ⟨m.pos, m.len - m.pos, m.arr.length - m.pos⟩) =
      ⟨m.pos, if 0 < n then min n.toNat (m.len - m.pos) else m.len - m.pos, m.arr.length - m.pos⟩ := by
    by_cases hn : 0 < n
    · rw [if_pos hn]
      split <;> simp only [Slice.mk.injEq, true_and, and_true] <;> omega
    · rw [if_neg hn, if_neg (fun h => hn h.1)]
  rw [hret]
  generalize hk : (if 0 < n then min n.toNat (m.len - m.pos) else m.len - m.pos) = k
  simp only
  by_cases h0 : k = 0
  · subst h0
    by_cases hn : 0 < n
    · rw [if_pos ⟨hn, rfl⟩]
      exact ⟨m.got, 0, rfl, rfl, .inl rfl, by rw [if_pos ⟨hn, rfl⟩]⟩
    · rw [if_neg (fun h => hn h.1), if_pos rfl]
      exact ⟨_, 0, rfl, rfl, .inr (.inl rfl), by rw [if_neg (fun h => hn h.1)]; simp⟩
  · rw [if_neg (fun h => h0 h.2), if_neg h0]
    exact ⟨_, k, rfl, rfl, .inr (.inr ⟨_, rfl⟩), by rw [if_neg (fun h => h0 h.2)]; rfl⟩

theorem readDir_agree {srt : (DirEnt → DirEnt → Bool) → List DirEnt → List DirEnt} {kids : Kids} {L : List DirEnt} {m : Mem} {r : Reader}
    (h : Agree srt kids L m r) (n : Int) :
    Agree srt kids L (m.readDir n).1 (r.readDir srt kids n).1 ∧ (m.readDir n).2 = plain (r.readDir srt kids n).2 := by
  obtain ⟨hl, hlen, hpos, t, ht⟩ := h
  have hp := hl.pos
  obtain ⟨got, k, hk, e1, _, e2⟩ := memRead (m := m) (by omega) n
  have hr : (r.readDir srt kids n) = ({ r with dirents := some L, pos := r.pos + k },
      if 0 < n ∧ k = 0 then .error .eof else .ok ((L.drop r.pos).take k)) := by
    rw [readDir_eq hl, readDirTail_eq (by exact hl.pos)]
    simp only
    by_cases hn : 0 < n
    · rw [if_pos hn] at hk
      rw [if_pos hn]
      by_cases he : r.pos = L.length
      · have : k = 0 := by omega
        rw [if_pos he, if_pos ⟨hn, this⟩, this]; rfl
      · rw [if_neg he, if_neg (by omega)]
        have a : min (r.pos + n.toNat) L.length = r.pos + k := by omega
        have b : (L.drop r.pos).take n.toNat = (L.drop r.pos).take k := by
          by_cases hle : n.toNat ≤ L.length - r.pos
          · have : k = n.toNat := by omega
            rw [this]
          · rw [List.take_of_length_le (by rw [List.length_drop]; omega), List.take_of_length_le (by rw [List.length_drop]; omega)]
        rw [a, b]
    · rw [if_neg hn] at hk
      rw [if_neg hn, if_neg (fun h => hn h.1), List.take_of_length_le (by rw [List.length_drop]; omega)]
      have a : L.length = r.pos + k := by omega
      rw [a]
  have hk' : k ≤ L.length - m.pos := by
    rw [hk]; split <;> omega
  rw [hr, e1, e2]
  refine ⟨⟨⟨hl.dir, hl.opn, .inl rfl, ?_⟩, hlen, ?_, t, ?_⟩, ?_⟩
  · simp only; omega
  · simp only; omega
  · simp only
    rw [← List.drop_drop, ht, List.drop_append_of_le_length (by rw [List.length_map, List.length_drop]; exact hk'), ← List.map_drop, List.drop_drop]
  · split
    · rfl
    · simp only [plain]
      rw [ht, List.take_append_of_le_length (by rw [List.length_map, List.length_drop]; exact hk'), ← List.map_take, hpos]

/-- operations that leave alone what is to come do not change what comes -/
theorem outs_alone {srt : (DirEnt → DirEnt → Bool) → List DirEnt → List DirEnt} {kids : Kids} {L : List DirEnt} :
    ∀ (ops : List Op) (m : Mem) (r : Reader), Agree srt kids L m r → AllSpare m ops →
      outs m ops = (alone srt kids r (reads ops)).map plain
  | [], _, _, _, _ => rfl
  | .read n :: ops, m, r, h, hs => by
    obtain ⟨h1, h2⟩ := readDir_agree h n
    show (m.readDir n).2 :: outs (m.readDir n).1 ops = plain _ :: _
    rw [h2, outs_alone ops _ _ h1 hs.2]
  | .assign k i x :: ops, m, r, h, hs => by
    have keep : (m.op (.assign k i x)).len = m.len ∧ (m.op (.assign k i x)).pos = m.pos := by
      simp only [Mem.op]
      cases m.got[k]? with
      | none => exact ⟨rfl, rfl⟩
      | some s => simp only; split <;> exact ⟨rfl, rfl⟩
    obtain ⟨t, ht⟩ := h.rest
    exact outs_alone ops (m.op (.assign k i x)) r ⟨h.listing, keep.1.trans h.len, keep.2.trans h.pos, t, by rw [keep.2, ← ht]; exact hs.1⟩ hs.2
  | .append k xs :: ops, m, r, h, hs => by
    have keep : (m.op (.append k xs)).len = m.len ∧ (m.op (.append k xs)).pos = m.pos := by
      simp only [Mem.op]
      cases m.got[k]? with
      | none => exact ⟨rfl, rfl⟩
      | some s => simp only; split <;> exact ⟨rfl, rfl⟩
    obtain ⟨t, ht⟩ := h.rest
    exact outs_alone ops (m.op (.append k xs)) r ⟨h.listing, keep.1.trans h.len, keep.2.trans h.pos, t, by rw [keep.2, ← ht]; exact hs.1⟩ hs.2

theorem drop_writeAt {arr : List (Option DirEnt)} {i p : Nat} {xs : List (Option DirEnt)} (h : i + xs.length ≤ p) (hi : i ≤ arr.length) :
    (writeAt arr i xs).drop p = arr.drop p := by
  unfold writeAt
  have hl : (arr.take i ++ xs).length = i + xs.length := by rw [List.length_append, List.length_take]; omega
  rw [List.drop_append, hl, List.drop_eq_nil_of_le (by rw [hl]; exact h), List.nil_append, List.drop_drop]
  congr 1
  omega

/-- every slice that the caller has ends where the calls have got to -/
def Behind (m : Mem) : Prop := m.pos ≤ m.len ∧ m.len ≤ m.arr.length ∧ ∀ s ∈ m.got, s.off + s.len ≤ m.pos

theorem length_writeAt {arr : List (Option DirEnt)} {i : Nat} {xs : List (Option DirEnt)} (h : i + xs.length ≤ arr.length) :
    (writeAt arr i xs).length = arr.length := by
  unfold writeAt
  simp only [List.length_append, List.length_take, List.length_drop]
  omega

theorem spare_of_behind : ∀ (ops : List Op) (m : Mem), Behind m → (∀ o ∈ ops, ∀ k xs, o ≠ .append k xs) → AllSpare m ops
  | [], _, _, _ => trivial
  | .read n :: ops, m, h, ha => by
    refine ⟨trivial, spare_of_behind ops _ ?_ (fun o ho => ha o (List.mem_cons_of_mem _ ho))⟩
    obtain ⟨h1, h2, h3⟩ := h
    obtain ⟨got, k, hk, e1, e3, _⟩ := memRead h1 n
    have hkl : k ≤ m.len - m.pos := by rw [hk]; split <;> omega
    show Behind (m.readDir n).1
    rw [e1]
    refine ⟨by simp only; omega, h2, ?_⟩
    simp only
    intro s hs
    have old : ∀ s ∈ m.got, s.off + s.len ≤ m.pos + k := fun s hs => Nat.le_trans (h3 s hs) (Nat.le_add_right _ _)
    rcases e3 with e | e | ⟨c, e⟩ <;> rw [e] at hs
    · exact old s hs
    · rcases List.mem_append.mp hs with hs | hs
      · exact old s hs
      · rw [List.mem_singleton.mp hs]; simp
    · rcases List.mem_append.mp hs with hs | hs
      · exact old s hs
      · rw [List.mem_singleton.mp hs]; simp
  | .assign k i x :: ops, m, h, ha => by
    have hrest := fun o ho => ha o (List.mem_cons_of_mem (Op.assign k i x) ho)
    obtain ⟨h1, h2, h3⟩ := h
    cases hg : m.got[k]? with
    | none =>
      have e : m.op (.assign k i x) = m := by simp only [Mem.op, hg]
      refine ⟨?_, ?_⟩
      · show (m.op (.assign k i x)).arr.drop m.pos = _
        rw [e]
      · rw [e]; exact spare_of_behind ops m ⟨h1, h2, h3⟩ hrest
    | some s =>
      by_cases hi : i < s.len
      · have hs := h3 s (List.mem_of_getElem? hg)
        have e : m.op (.assign k i x) = { m with arr := writeAt m.arr (s.off + i) [x] } := by simp only [Mem.op, hg, if_pos hi]
        refine ⟨?_, ?_⟩
        · show (m.op (.assign k i x)).arr.drop m.pos = _
          rw [e]
          exact drop_writeAt (by simp; omega) (by omega)
        · rw [e]
          refine spare_of_behind ops _ ⟨h1, ?_, h3⟩ hrest
          show m.len ≤ (writeAt m.arr (s.off + i) [x]).length
          rw [length_writeAt (by simp; omega)]; exact h2
      · have e : m.op (.assign k i x) = m := by simp only [Mem.op, hg, if_neg hi]
        refine ⟨?_, ?_⟩
        · show (m.op (.assign k i x)).arr.drop m.pos = _
          rw [e]
        · rw [e]; exact spare_of_behind ops m ⟨h1, h2, h3⟩ hrest
  | .append k xs :: ops, _, _, ha => absurd rfl (ha (.append k xs) (by simp) k xs)

theorem agree_start {srt : (DirEnt → DirEnt → Bool) → List DirEnt → List DirEnt} {kids : Kids} {L : List DirEnt} {r : Reader}
    (h : Listing srt kids L r) (h0 : r.pos = 0) (markers : Nat) : Agree srt kids L (Mem.start L markers) r :=
  ⟨h, rfl, h0.symm, List.replicate markers none, rfl⟩

theorem behind_start (L : List DirEnt) (markers : Nat) : Behind (Mem.start L markers) :=
  ⟨Nat.zero_le _, by simp [Mem.start], by simp [Mem.start]⟩

theorem readDir_one {m : Mem} (h : m.pos < m.len) :
    m.readDir 1 = ({ m with pos := m.pos + 1, got := m.got ++ [⟨m.pos, 1, m.arr.length - m.pos⟩] }, .ok (m.view ⟨m.pos, 1, m.arr.length - m.pos⟩)) := by
  have e1 : (if m.pos > m.len then m.len else m.pos) = m.pos := if_neg (by omega)
  have e2 : (if (1 : Int) > 0 ∧ (1 : Int) < ((m.len - m.pos : Nat) : Int) then (⟨m.pos, (1 : Int).toNat, m.arr.length - m.pos⟩ : Slice)
      else ⟨m.pos, m.len - m.pos, m.arr.length - m.pos⟩) = ⟨m.pos, 1, m.arr.length - m.pos⟩ := by
    by_cases h1 : m.len - m.pos = 1
    · rw [h1]; rfl
    · rw [if_pos ⟨by omega, by omega⟩]; rfl
  unfold Mem.readDir
  simp only [e1, e2]
  rfl

theorem readDir_all (m : Mem) : (m.readDir (-1)).2 = .ok ((m.arr.drop m.pos).take (m.len - m.pos)) := by
  unfold Mem.readDir
  simp only [Int.reduceNeg, Int.reduceLT, gt_iff_lt, false_and, if_false]
  split
  · simp only [Nat.sub_self, if_true]
    rw [Nat.sub_eq_zero_of_le (by omega)]; rfl
  · split
    · rename_i h; rw [h]; rfl
    · rfl

/-- a fresh handle on a directory of a loaded file system whose links can all be followed -/
theorem listing_start (fuel : Nat) (oc : Bool) (layers : List (List Entry)) (S : FS)
    (hload : loadLayers fuel layers oc = some (.ok S)) (srt : (DirEnt → DirEnt → Bool) → List DirEnt → List DirEnt)
    (hs : SortSlice srt) (p : Path) (nd : Node) (hdir : ∀ h, nd.header = some h → h.typeflag = '5')
    (n : Nat) (hf : ∀ c, (S.get? (p ++ [c])).isSome = true → ¬ isMarker c →
      ∃ y, get n S (p ++ [c]) ".".toList false true = some (.ok y)) :
    ∃ L, Spec.GoodListing S p L ∧ ∀ (order : List Str → List Str), (∀ l, (order l).Perm l) →
      Listing srt (kidsOf n order S p) L (freshReader nd) := by
  have hi : Inv false S := load_inv (by simp) hload
  obtain ⟨_, L, _, _, hg⟩ := listing_good hi hs (order := id) (fun _ => List.Perm.refl _) hf
  refine ⟨L, hg, ?_⟩
  intro order ho
  obtain ⟨l', L', e1, e2, hg'⟩ := listing_good hi hs ho hf
  have hL : L' = L := hg'.unique hg
  subst hL
  have hnd : nd.nonDir = false := by
    unfold Node.nonDir
    cases hh : nd.header with
    | none => rfl
    | some h => simp [hdir h hh, typeDir]
  exact ⟨hnd, rfl, .inr ⟨rfl, l', e1, e2⟩, Nat.zero_le _⟩

/-- C124, for callers that append only in ways that leave what is still to be delivered as it is (`Spares`): for instance if the slice was
cut to its capacity before, or what is appended is what the next call returned, as in gathering the whole listing.  Let `S` be any loaded
file system and `p` a directory of it whose links can all be followed, with its listing `L`.  Then all calls of `ReadDir` on a fresh handle
return what they would have returned had the caller done nothing else. -/
theorem C124_spares_partial (fuel : Nat) (oc : Bool) (layers : List (List Entry)) (S : FS)
    (hload : loadLayers fuel layers oc = some (.ok S)) (srt : (DirEnt → DirEnt → Bool) → List DirEnt → List DirEnt)
    (hs : SortSlice srt) (p : Path) (nd : Node) (hdir : ∀ h, nd.header = some h → h.typeflag = '5')
    (n : Nat) (hf : ∀ c, (S.get? (p ++ [c])).isSome = true → ¬ isMarker c →
      ∃ y, get n S (p ++ [c]) ".".toList false true = some (.ok y)) :
    ∃ L, Spec.GoodListing S p L ∧ ∀ (order : List Str → List Str), (∀ l, (order l).Perm l) →
      ∀ (markers : Nat) (ops : List Op), AllSpare (Mem.start L markers) ops →
      outs (Mem.start L markers) ops = (alone srt (kidsOf n order S p) (freshReader nd) (reads ops)).map plain := by
  obtain ⟨L, hg, hst⟩ := listing_start fuel oc layers S hload srt hs p nd hdir n hf
  exact ⟨L, hg, fun order ho markers ops ha => outs_alone ops _ _ (agree_start (hst order ho) rfl markers) ha⟩

/-- C124, for callers that append to none of the slices they got.  They may call `ReadDir` and change the slices' elements in any way. -/
theorem C124_assign_partial (fuel : Nat) (oc : Bool) (layers : List (List Entry)) (S : FS)
    (hload : loadLayers fuel layers oc = some (.ok S)) (srt : (DirEnt → DirEnt → Bool) → List DirEnt → List DirEnt)
    (hs : SortSlice srt) (p : Path) (nd : Node) (hdir : ∀ h, nd.header = some h → h.typeflag = '5')
    (n : Nat) (hf : ∀ c, (S.get? (p ++ [c])).isSome = true → ¬ isMarker c →
      ∃ y, get n S (p ++ [c]) ".".toList false true = some (.ok y)) :
    ∃ L, Spec.GoodListing S p L ∧ ∀ (order : List Str → List Str), (∀ l, (order l).Perm l) →
      ∀ (markers : Nat) (ops : List Op), (∀ o ∈ ops, ∀ k xs, o ≠ .append k xs) →
      outs (Mem.start L markers) ops = (alone srt (kidsOf n order S p) (freshReader nd) (reads ops)).map plain := by
  obtain ⟨L, hg, hst⟩ := listing_start fuel oc layers S hload srt hs p nd hdir n hf
  exact ⟨L, hg, fun order ho markers ops ha =>
    outs_alone ops _ _ (agree_start (hst order ho) rfl markers) (spare_of_behind ops _ (behind_start L markers) ha)⟩

/-- The code violates C124, in every directory with at least two entries (whose links can all be followed).  A caller reads one entry,
appends something else to the slice it got, and reads on: the next call delivers what the caller appended, and the second entry is never
delivered. -/
theorem C124_violated (fuel : Nat) (oc : Bool) (layers : List (List Entry)) (S : FS)
    (hload : loadLayers fuel layers oc = some (.ok S)) (srt : (DirEnt → DirEnt → Bool) → List DirEnt → List DirEnt)
    (hs : SortSlice srt) (p : Path) (nd : Node) (hdir : ∀ h, nd.header = some h → h.typeflag = '5')
    (n : Nat) (hf : ∀ c, (S.get? (p ++ [c])).isSome = true → ¬ isMarker c →
      ∃ y, get n S (p ++ [c]) ".".toList false true = some (.ok y))
    (c d : Str) (hcd : c ≠ d) (hc : (S.get? (p ++ [c])).isSome = true ∧ ¬ isMarker c) (hd : (S.get? (p ++ [d])).isSome = true ∧ ¬ isMarker d) :
    ∃ a b rest, Spec.GoodListing S p (a :: b :: rest) ∧ ∀ (order : List Str → List Str), (∀ l, (order l).Perm l) →
      ∀ (markers : Nat) (x : DirEnt),
      alone srt (kidsOf n order S p) (freshReader nd) [1, 1, -1] = [.ok [a], .ok [b], .ok rest] ∧
      outs (Mem.start (a :: b :: rest) markers) [.read 1, .append 0 [some x], .read 1, .read (-1)] =
        [.ok [some a], .ok [some x], .ok (rest.map some)] := by
  obtain ⟨L, hg, hst⟩ := listing_start fuel oc layers S hload srt hs p nd hdir n hf
  match L, hg, hst with
  | [], hg, _ => exact absurd ((hg.mem c).mpr hc) (by simp)
  | [e], hg, _ =>
    have h1 := (hg.mem c).mpr hc
    have h2 := (hg.mem d).mpr hd
    simp only [List.map_cons, List.map_nil, List.mem_singleton] at h1 h2
    exact absurd (h1.trans h2.symm) hcd
  | a :: b :: rest, hg, hst =>
    refine ⟨a, b, rest, hg, ?_⟩
    intro order ho markers x
    constructor
    · have h := outs_alone [.read 1, .read 1, .read (-1)] _ _ (agree_start (hst order ho) rfl 0) ⟨trivial, trivial, trivial, trivial⟩
      have e : outs (Mem.start (a :: b :: rest) 0) [.read 1, .read 1, .read (-1)] = [Except.ok [a], .ok [b], .ok rest].map plain := by
        simp only [outs, Mem.op, Mem.start, readDir_all]
        rw [readDir_one (by simp)]
        simp only
        rw [readDir_one (by simp)]
        simp [Mem.view, plain, List.take_of_length_le]
      rw [e] at h
      exact (List.map_inj_right plain_inj).mp h.symm
    · simp only [outs, Mem.op, Mem.start, readDir_all]
      rw [readDir_one (by simp)]
      simp only [List.nil_append, List.getElem?_cons_zero]
      rw [if_pos (by simp)]
      rw [readDir_one (by simp)]
      simp [Mem.view, writeAt]

/-- a directory with three files and a whiteout marker, loaded from a layer -/
def exListed : List (List Entry) := [[exDir "d/", exFile "d/.wh.x" [], exFile "d/a" [1], exFile "d/b" [2], exFile "d/c" [3]]]

def exEnts : List DirEnt := [⟨"a".toList, false⟩, ⟨"b".toList, false⟩, ⟨"c".toList, false⟩]

example : ∃ S, loadLayers 9 exListed false = some (.ok S) ∧
    ((childNames S ["d".toList]).all fun c => hasPrefix c whPrefix ||
      match get 9 S (["d".toList] ++ [c]) ".".toList false true with | some (.ok _) => true | _ => false) = true ∧
    (S.get? ["d".toList, "a".toList]).isSome = true ∧ (S.get? ["d".toList, "b".toList]).isSome = true :=
  ⟨_, rfl, by decide +kernel, by decide +kernel, by decide +kernel⟩

/-- gathering the listing piece by piece, appending each piece to the first slice, is harmless, and so is changing what was delivered -/
example : AllSpare (Mem.start exEnts 1) [.read 1, .read 1, .append 0 [some ⟨"b".toList, false⟩], .assign 0 0 none, .read 1,
    .append 2 [some ⟨"c".toList, false⟩]] := by
  refine ⟨trivial, trivial, rfl, rfl, trivial, rfl, trivial⟩

end Squash.Alias
