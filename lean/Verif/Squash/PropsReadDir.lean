import Verif.Squash.PropsTree
import Verif.Squash.PropsRead
/-! C71: reading a directory of the loaded file system in pieces. -/
namespace Squash
open Go Spec

abbrev Kids := List (Str × Option Str × Bool)

/-- a sequence of ReadDir calls -/
def readDirs (srt : (DirEnt → DirEnt → Bool) → List DirEnt → List DirEnt) (kids : Kids) : Reader → List Int → Reader
  | r, [] => r
  | r, n :: ns => readDirs srt kids (r.readDir srt kids n).1 ns

/-- what a sequence of ReadDir calls delivered, put together -/
def listed (srt : (DirEnt → DirEnt → Bool) → List DirEnt → List DirEnt) (kids : Kids) : Reader → List Int → List DirEnt
  | _, [] => []
  | r, n :: ns => (match (r.readDir srt kids n).2 with | .ok l => l | .error _ => []) ++ listed srt kids (r.readDir srt kids n).1 ns

def entOf (k : Str × Option Str × Bool) : DirEnt := match k.2.1 with | some b => ⟨b, false⟩ | none => ⟨k.1, true⟩

theorem listLoop_eq : ∀ (kids : Kids) (acc : List DirEnt),
    (∀ k ∈ kids, hasPrefix k.1 whPrefix = false → k.2.2 = true) →
    listLoop kids acc = (acc ++ (kids.filter (fun k => !hasPrefix k.1 whPrefix)).map entOf, true) := by
  intro kids
  induction kids with
  | nil => intro acc _; simp [listLoop]
  | cons k kids ih =>
    intro acc h
    obtain ⟨key, base, fl⟩ := k
    rw [listLoop.eq_def]; simp only
    have hk := h (key, base, fl) (by simp)
    cases e : hasPrefix key whPrefix with
    | true =>
      rw [if_pos rfl, ih acc (fun k hk => h k (by simp [hk])), List.filter_cons, if_neg (by simp [e])]
    | false =>
      have hf : fl = true := hk e
      subst hf
      rw [if_neg (by simp), if_neg (by simp), ih _ (fun k hk => h k (by simp [hk])), List.filter_cons, if_pos (by simp [e]),
        List.map_cons, List.append_assoc]
      cases base <;> rfl

theorem readDirTail_eq {r : Reader} {ents : List DirEnt} (hp : r.pos ≤ ents.length) (n : Int) :
    r.readDirTail ents n = if 0 < n then
        (if r.pos = ents.length then (r, .error .eof)
         else ({ r with pos := min (r.pos + n.toNat) ents.length }, .ok ((ents.drop r.pos).take n.toNat)))
      else ({ r with pos := ents.length }, .ok (ents.drop r.pos)) := by
  unfold Reader.readDirTail
  simp only
  have hpos : (if r.pos > ents.length then ents.length else r.pos) = r.pos := if_neg (by omega)
  rw [hpos]
  have hl : (ents.drop r.pos).length = ents.length - r.pos := List.length_drop
  have hret : (if n > 0 ∧ n < ((ents.drop r.pos).length : Int) then (ents.drop r.pos).take n.toNat else ents.drop r.pos) =
      if 0 < n then (ents.drop r.pos).take n.toNat else ents.drop r.pos := by
    by_cases hn : 0 < n
    · rw [if_pos hn]
      by_cases hs : n < ((ents.drop r.pos).length : Int)
      · rw [if_pos ⟨hn, hs⟩]
      · rw [if_neg (fun h => hs h.2), List.take_of_length_le (by omega)]
    · rw [if_neg hn, if_neg (fun h => hn h.1)]
  rw [hret]
  by_cases hn : 0 < n
  · rw [if_pos hn, if_pos hn]
    have ht : ((ents.drop r.pos).take n.toNat).length = min n.toNat (ents.length - r.pos) := by rw [List.length_take, hl]
    rw [ht]
    by_cases he : r.pos = ents.length
    · rw [if_pos he, if_pos ⟨hn, by omega⟩]
    · rw [if_neg he, if_neg (by omega)]
      have : r.pos + min n.toNat (ents.length - r.pos) = min (r.pos + n.toNat) ents.length := by omega
      rw [this]
  · rw [if_neg hn, if_neg hn, if_neg (fun h => hn h.1), hl]
    have : r.pos + (ents.length - r.pos) = ents.length := by omega
    rw [this]

/-- the state of a handle whose listing is, or will be, `L` -/
structure Listing (srt : (DirEnt → DirEnt → Bool) → List DirEnt → List DirEnt) (kids : Kids) (L : List DirEnt) (r : Reader) :
    Prop where
  dir : r.tgt.nonDir = false
  opn : r.closed = false
  ents : r.dirents = some L ∨ r.dirents = none ∧ ∃ l, listLoop kids [] = (l, true) ∧ srt (fun a b => decide (a.name < b.name)) l = L
  pos : r.pos ≤ L.length

theorem readDir_eq {srt : (DirEnt → DirEnt → Bool) → List DirEnt → List DirEnt} {kids : Kids} {L : List DirEnt} {r : Reader}
    (h : Listing srt kids L r) (n : Int) : r.readDir srt kids n = Reader.readDirTail { r with dirents := some L } L n := by
  unfold Reader.readDir
  rw [h.dir, h.opn]
  simp only [Bool.false_eq_true, if_false]
  rcases h.ents with e | ⟨e, l, e1, e2⟩
  · rw [e]
    simp only
    rw [← e, ← h.opn]
  · rw [e, e1]
    simp only
    rw [e2]

theorem listing_next {srt : (DirEnt → DirEnt → Bool) → List DirEnt → List DirEnt} {kids : Kids} {L : List DirEnt} {r : Reader}
    (h : Listing srt kids L r) {n : Int} (hn : 0 < n) :
    Listing srt kids L (r.readDir srt kids n).1 ∧ (r.readDir srt kids n).1.pos = min (r.pos + n.toNat) L.length ∧
    (r.readDir srt kids n).2 = if r.pos = L.length then .error .eof else .ok ((L.drop r.pos).take n.toNat) := by
  have hp := h.pos
  rw [readDir_eq h, readDirTail_eq (by exact h.pos), if_pos hn]
  simp only
  split
  · rename_i e
    exact ⟨⟨h.dir, h.opn, .inl rfl, h.pos⟩, by simp only; omega, rfl⟩
  · exact ⟨⟨h.dir, h.opn, .inl rfl, by simp only; omega⟩, rfl, rfl⟩

theorem readDirs_state {srt : (DirEnt → DirEnt → Bool) → List DirEnt → List DirEnt} {kids : Kids} {L : List DirEnt} :
    ∀ (ns : List Nat) (r : Reader), Listing srt kids L r → (∀ n ∈ ns, 0 < n) →
      Listing srt kids L (readDirs srt kids r (ns.map Int.ofNat)) ∧
      (readDirs srt kids r (ns.map Int.ofNat)).pos = min (r.pos + ns.sum) L.length ∧
      listed srt kids r (ns.map Int.ofNat) = (L.drop r.pos).take ns.sum := by
  intro ns
  induction ns with
  | nil =>
    intro r h _
    have := h.pos
    refine ⟨h, ?_, ?_⟩
    · simp only [List.map_nil, readDirs, List.sum_nil]; omega
    · simp [listed]
  | cons n ns ih =>
    intro r h hn
    have hp := h.pos
    have hn1 : 0 < (Int.ofNat n) := by have := hn n (by simp); simp only [Int.ofNat_eq_natCast]; omega
    obtain ⟨h1, h2, h3⟩ := listing_next h hn1
    have h4 : (Int.ofNat n).toNat = n := rfl
    rw [h4] at h2 h3
    obtain ⟨i1, i2, i3⟩ := ih _ h1 (fun m hm => hn m (by simp [hm]))
    rw [List.map_cons, readDirs, listed]
    refine ⟨i1, by rw [i2, h2, List.sum_cons]; omega, ?_⟩
    rw [i3, h2, h3, List.sum_cons]
    by_cases he : r.pos = L.length
    · rw [if_pos he, List.drop_eq_nil_of_le (as := L) (i := r.pos) (by omega),
        List.drop_eq_nil_of_le (as := L) (i := min (r.pos + n) L.length) (by omega)]
      simp
    · rw [if_neg he]
      simp only
      by_cases hm : r.pos + n ≤ L.length
      · rw [Nat.min_eq_left hm, List.take_add, List.drop_drop]
      · rw [List.drop_eq_nil_of_le (as := L) (i := min (r.pos + n) L.length) (by omega), List.take_nil, List.append_nil,
          List.take_of_length_le (by rw [List.length_drop]; omega),
          List.take_of_length_le (by rw [List.length_drop]; omega)]

/-- the listing that a directory should have: the names of the children that are not whiteout markers, each once, in
order; an entry is "missing" when the layers contain no entry for it -/
structure Spec.GoodListing (S : FS) (p : Path) (L : List DirEnt) : Prop where
  sorted : (L.map (·.name)).Pairwise (· < ·)
  mem : ∀ c, c ∈ L.map (·.name) ↔ (S.get? (p ++ [c])).isSome = true ∧ ¬ isMarker c
  missing : ∀ d ∈ L, d.missing = true ↔ ∃ b, S.get? (p ++ [d.name]) = some ⟨none, b⟩

theorem nameLess_strict (l : List DirEnt) (hinj : ∀ a ∈ l, ∀ b ∈ l, a.name = b.name → a = b) :
    StrictWeak (fun a b : DirEnt => decide (a.name < b.name)) (· ∈ l) := by
  refine ⟨?_, ?_, ?_⟩
  · intro a _; simp
  · intro a b c _ _ _ h1 h2
    simp only [decide_eq_true_eq] at h1 h2 ⊢
    exact List.lt_trans h1 h2
  · intro a b c ha hb hc h1 h2 h3 h4
    simp only [decide_eq_false_iff_not] at h1 h2 h3 h4
    have e1 := hinj a ha b hb (List.le_antisymm h2 h1)
    have e2 := hinj b hb c hc (List.le_antisymm h4 h3)
    subst e1; subst e2
    simp only [decide_eq_false_iff_not]
    exact ⟨h1, h1⟩

theorem entOf_kid {b : Bool} {S : FS} (hi : Inv b S) {p : Path} {c : Str} (hc : hasPrefix c whPrefix = false)
    (hh : S.has (p ++ [c])) (fl : Bool) :
    (entOf (c, (match S.get? (p ++ [c]) with | some ⟨some h, _⟩ => some (pathBase h.name) | _ => none), fl)).name = c ∧
    ((entOf (c, (match S.get? (p ++ [c]) with | some ⟨some h, _⟩ => some (pathBase h.name) | _ => none), fl)).missing = true ↔
      ∃ bd, S.get? (p ++ [c]) = some ⟨none, bd⟩) := by
  unfold FS.has at hh
  cases hg : S.get? (p ++ [c]) with
  | none => rw [hg] at hh; simp at hh
  | some nd =>
    obtain ⟨hd, bd⟩ := nd
    cases hd with
    | none => simp [entOf]
    | some h =>
      simp only [entOf]
      rcases hi.base p c _ h hg rfl with e | e
      · rw [hc] at e; simp at e
      · rw [e]; simp

/-- the listing built for a directory of a loaded file system, when all its links can be followed -/
theorem listing_good {b : Bool} {S : FS} (hi : Inv b S) {srt : (DirEnt → DirEnt → Bool) → List DirEnt → List DirEnt}
    (hs : SortSlice srt) {order : List Str → List Str} (ho : ∀ l, (order l).Perm l) {n : Nat} {p : Path}
    (hf : ∀ c, S.has (p ++ [c]) → ¬ isMarker c → ∃ y, get n S (p ++ [c]) ".".toList false true = some (.ok y)) :
    ∃ l L, listLoop (kidsOf n order S p) [] = (l, true) ∧ srt (fun a b => decide (a.name < b.name)) l = L ∧
      Spec.GoodListing S p L := by
  have hmark : ∀ {c : Str}, hasPrefix c whPrefix = false ↔ ¬ isMarker c := by
    intro c
    rw [← Bool.not_eq_true, hasPrefix_iff]; rfl
  have hmem : ∀ {c}, c ∈ order (childNames S p) ↔ S.has (p ++ [c]) := fun {c} => by
    rw [(ho _).mem_iff, mem_childNames]
  have hloop := listLoop_eq (kidsOf n order S p) [] (by
    intro k hk hw
    unfold kidsOf at hk
    rw [List.mem_map] at hk
    obtain ⟨c, hc, rfl⟩ := hk
    obtain ⟨y, hy⟩ := hf c (hmem.mp hc) (hmark.mp hw)
    simp only [hy])
  rw [List.nil_append] at hloop
  generalize hl : ((kidsOf n order S p).filter (fun k => !hasPrefix k.1 whPrefix)).map entOf = l at hloop
  have hl_mem : ∀ d, d ∈ l ↔ ∃ c, S.has (p ++ [c]) ∧ ¬ isMarker c ∧ d = entOf (c,
      (match S.get? (p ++ [c]) with | some ⟨some h, _⟩ => some (pathBase h.name) | _ => none),
      (match get n S (p ++ [c]) ".".toList false true with | some (.ok _) => true | _ => false)) := by
    intro d
    rw [← hl, List.mem_map]
    constructor
    · rintro ⟨k, hk, rfl⟩
      rw [List.mem_filter] at hk
      unfold kidsOf at hk
      rw [List.mem_map] at hk
      obtain ⟨⟨c, hc, rfl⟩, hw⟩ := hk
      exact ⟨c, hmem.mp hc, hmark.mp (by simpa using hw), rfl⟩
    · rintro ⟨c, hc, hw, rfl⟩
      refine ⟨_, ?_, rfl⟩
      rw [List.mem_filter]
      unfold kidsOf
      rw [List.mem_map]
      exact ⟨⟨c, hmem.mpr hc, rfl⟩, by simpa using hmark.mpr hw⟩
  have hnames : l.map (·.name) = (order (childNames S p)).filter (fun c => !hasPrefix c whPrefix) := by
    rw [← hl]
    unfold kidsOf
    rw [List.filter_map, List.map_map, List.map_map]
    have : ∀ c ∈ (order (childNames S p)).filter ((fun k : Str × Option Str × Bool => !hasPrefix k.1 whPrefix) ∘ fun c =>
        (c, (match S.get? (p ++ [c]) with | some ⟨some h, _⟩ => some (pathBase h.name) | _ => none),
          (match get n S (p ++ [c]) ".".toList false true with | some (.ok _) => true | _ => false))),
        (((fun d : DirEnt => d.name) ∘ entOf) ∘ fun c =>
        (c, (match S.get? (p ++ [c]) with | some ⟨some h, _⟩ => some (pathBase h.name) | _ => none),
          (match get n S (p ++ [c]) ".".toList false true with | some (.ok _) => true | _ => false))) c = id c := by
      intro c hc
      rw [List.mem_filter] at hc
      exact (entOf_kid hi (by simpa using hc.2) (hmem.mp hc.1) _).1
    exact (List.map_congr_left this).trans (List.map_id _)
  have hnd : (l.map (·.name)).Nodup := by
    rw [hnames]
    exact ((ho _).nodup_iff.mpr (nodup_childNames hi.nodup p)).filter _
  have hinj : ∀ a ∈ l, ∀ b ∈ l, a.name = b.name → a = b := by
    intro a ha b hb e
    obtain ⟨c, h1, h2, rfl⟩ := (hl_mem a).mp ha
    obtain ⟨d, h3, h4, rfl⟩ := (hl_mem b).mp hb
    have e1 := (entOf_kid hi (hmark.mpr h2) h1 (match get n S (p ++ [c]) ".".toList false true with | some (.ok _) => true | _ => false)).1
    have e2 := (entOf_kid hi (hmark.mpr h4) h3 (match get n S (p ++ [d]) ".".toList false true with | some (.ok _) => true | _ => false)).1
    rw [e1, e2] at e
    rw [e]
  refine ⟨l, _, hloop, rfl, ?_, ?_, ?_⟩
  · have h1 := hs.sorted _ _ (nameLess_strict l hinj)
    have h2 : (srt (fun a b => decide (a.name < b.name)) l).Pairwise (fun a b => a.name ≠ b.name) := by
      have h3 := ((hs.perm (fun a b => decide (a.name < b.name)) l).map (·.name)).nodup_iff.mpr hnd
      unfold List.Nodup at h3
      rw [List.pairwise_map] at h3
      exact h3
    rw [List.pairwise_map]
    refine (h1.and h2).imp ?_
    rintro a b ⟨h3, h4⟩
    simp only [decide_eq_false_iff_not] at h3
    apply Classical.byContradiction
    intro h5
    exact h4 (List.le_antisymm h3 h5)
  · intro c
    rw [((hs.perm (fun a b => decide (a.name < b.name)) l).map (·.name)).mem_iff, hnames, List.mem_filter, hmem]
    constructor
    · rintro ⟨h1, h2⟩; exact ⟨h1, hmark.mp (by simpa using h2)⟩
    · rintro ⟨h1, h2⟩; exact ⟨h1, by simpa using hmark.mpr h2⟩
  · intro d hd
    rw [(hs.perm _ l).mem_iff, hl_mem] at hd
    obtain ⟨c, h1, h2, rfl⟩ := hd
    obtain ⟨e1, e2⟩ := entOf_kid hi (hmark.mpr h2) h1 (match get n S (p ++ [c]) ".".toList false true with | some (.ok _) => true | _ => false)
    rw [e1]; exact e2

/-- there is only one such listing -/
theorem Spec.GoodListing.unique {S : FS} {p : Path} {L' L : List DirEnt} (hg' : Spec.GoodListing S p L') (hg : Spec.GoodListing S p L) : L' = L := by
  have hn : L'.map (·.name) = L.map (·.name) := by
    refine List.Perm.eq_of_pairwise (le := (· < ·)) (fun a b _ _ h1 h2 => absurd h2 (List.lt_asymm h1)) hg'.sorted hg.sorted ?_
    refine (List.perm_ext_iff_of_nodup ?_ ?_).mpr (fun c => by rw [hg'.mem, hg.mem])
    · exact List.Pairwise.imp (fun {a b} (h : a < b) (e : a = b) => List.lt_irrefl _ (e ▸ h)) hg'.sorted
    · exact List.Pairwise.imp (fun {a b} (h : a < b) (e : a = b) => List.lt_irrefl _ (e ▸ h)) hg.sorted
  refine List.ext_getElem (by simpa using congrArg List.length hn) ?_
  intro i h1 h2
  have e3 : L'[i].name = L[i].name := by
    have := List.getElem_of_eq hn (i := i) (by simpa using h1)
    simpa using this
  have e4 := hg'.missing L'[i] (List.getElem_mem _)
  have e5 := hg.missing L[i] (List.getElem_mem _)
  rw [e3, ← e5] at e4
  have e6 : L'[i].missing = L[i].missing := by
    cases h3 : L'[i].missing <;> cases h4 : L[i].missing <;> simp_all
  cases h3 : L'[i]; cases h4 : L[i]; simp_all

/-- C71, for directories whose links can all be followed (otherwise see `C71_violated`).  Let `S` be any loaded file
system and `p` a directory in it.  There is a listing with each child that is not a whiteout marker exactly once, in
order, such that whatever sequence of ReadDir(n), n > 0, is made on a fresh handle: together they delivered the first
part of that listing, the next ReadDir(m) with m > 0 returns the next m entries, or EOF exactly when everything has been
delivered, and ReadDir(m) with m ≤ 0 returns all that remains.  The listing does not depend on map iteration order. -/
theorem C71_readDir_partial (fuel : Nat) (oc : Bool) (layers : List (List Entry)) (S : FS)
    (hload : loadLayers fuel layers oc = some (.ok S)) (srt : (DirEnt → DirEnt → Bool) → List DirEnt → List DirEnt)
    (hs : SortSlice srt) (p : Path) (nd : Node) (hdir : ∀ h, nd.header = some h → h.typeflag = '5')
    (n : Nat) (hf : ∀ c, (S.get? (p ++ [c])).isSome = true → ¬ isMarker c →
      ∃ y, get n S (p ++ [c]) ".".toList false true = some (.ok y)) :
    ∃ L, Spec.GoodListing S p L ∧ ∀ (order : List Str → List Str), (∀ l, (order l).Perm l) →
      ∀ ns : List Nat, (∀ k ∈ ns, 0 < k) →
      let kids := kidsOf n order S p
      let r := readDirs srt kids (freshReader nd) (ns.map Int.ofNat)
      listed srt kids (freshReader nd) (ns.map Int.ofNat) = L.take ns.sum ∧
      (∀ m : Int, 0 < m → (r.readDir srt kids m).2 =
        if L.length ≤ ns.sum then .error .eof else .ok ((L.drop ns.sum).take m.toNat)) ∧
      (∀ m : Int, m ≤ 0 → (r.readDir srt kids m).2 = .ok (L.drop ns.sum)) := by
  have hi : Inv false S := load_inv (by simp) hload
  obtain ⟨_, L, _, _, hg⟩ := listing_good hi hs (order := id) (fun _ => List.Perm.refl _) hf
  refine ⟨L, hg, ?_⟩
  intro order ho ns hns
  obtain ⟨l', L', e1, e2, hg'⟩ := listing_good hi hs ho hf
  have hL : L' = L := hg'.unique hg
  subst hL
  have hnd : nd.nonDir = false := by
    unfold Node.nonDir
    cases hh : nd.header with
    | none => rfl
    | some h => simp [hdir h hh, typeDir]
  have hst : Listing srt (kidsOf n order S p) L' (freshReader nd) :=
    ⟨hnd, rfl, .inr ⟨rfl, l', e1, e2⟩, Nat.zero_le _⟩
  obtain ⟨i1, i2, i3⟩ := readDirs_state ns _ hst hns
  have i2' : (readDirs srt (kidsOf n order S p) (freshReader nd) (ns.map Int.ofNat)).pos = min ns.sum L'.length := by
    rw [i2]; simp [freshReader]
  refine ⟨by rw [i3]; rfl, ?_, ?_⟩
  · intro m hm
    rw [(listing_next i1 hm).2.2, i2']
    by_cases hl : L'.length ≤ ns.sum
    · rw [if_pos hl, if_pos (by omega)]
    · rw [if_neg hl, if_neg (by omega), Nat.min_eq_left (by omega)]
  · intro m hm
    rw [readDir_eq i1, readDirTail_eq (by exact i1.pos), if_neg (by omega)]
    simp only [i2']
    by_cases hl : L'.length ≤ ns.sum
    · rw [Nat.min_eq_right hl, List.drop_eq_nil_of_le (Nat.le_refl _), List.drop_eq_nil_of_le hl]
    · rw [Nat.min_eq_left (by omega)]

/-- the directory "d" of a layer with a file, a link to it, an implied directory and a whiteout marker -/
example : (match loadLayers 9 [[exFile "d/b" [1], exLink "d/a" "b", exFile "d/c/x" [], exFile "d/.wh.z" []]] false with
    | some (.ok S) =>
      (childNames S ["d".toList]).all (fun c =>
        match get 9 S (["d".toList] ++ [c]) ".".toList false true with | some (.ok _) => true | _ => false) &&
      decide (listed insertionSort (kidsOf 9 id S ["d".toList]) (freshReader ⟨none, []⟩) [2, 2] =
        [⟨"a".toList, false⟩, ⟨"b".toList, false⟩, ⟨"c".toList, true⟩])
    | _ => false) = true := by decide +kernel

/-- the outcomes of two calls of ReadDir(-1) on the root of a layer with the file "a" and the dangling link "l", for the
map iteration order `order` -/
def exDangling (order : List Str → List Str) : Option (Except IOErr (List DirEnt) × Except IOErr (List DirEnt)) :=
  match loadLayers 9 [[exFile "a" [], exLink "l" "nowhere"]] false with
  | some (.ok S) =>
    let kids := kidsOf 9 order S []
    let x := (freshReader ⟨none, []⟩).readDir insertionSort kids (-1)
    some (x.2, (x.1.readDir insertionSort kids (-1)).2)
  | _ => none

instance : DecidableEq (Except IOErr (List DirEnt)) := fun a b =>
  match a, b with
  | .ok x, .ok y => if h : x = y then isTrue (by rw [h]) else isFalse (by simpa using h)
  | .error x, .error y => if h : x = y then isTrue (by rw [h]) else isFalse (by simpa using h)
  | .ok _, .error _ => isFalse (by simp)
  | .error _, .ok _ => isFalse (by simp)

/-- C71 fails for a directory with a dangling link: ReadDir(-1) fails but leaves what it had collected behind, and the
next ReadDir(-1) on the handle succeeds with that part, which depends on the iteration order of the map. -/
theorem C71_violated :
    exDangling id = some (.error .other, .ok []) ∧
    exDangling List.reverse = some (.error .other, .ok [⟨"a".toList, false⟩]) := by
  constructor <;> decide +kernel

end Squash
