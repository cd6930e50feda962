import Verif.Pep440.Spec
import Verif.Go.Lemmas
/-! Lemmas relating the model's comparison functions to the PEP 440 key order. -/
namespace Pep440
open Go Spec

instance Ext.cmpOriented {α : Type} (c : α → α → Ordering) [Std.OrientedCmp c] : Std.OrientedCmp (Ext.cmp c) where
  eq_swap {a b} := by
    cases a <;> cases b <;> simp [Ext.cmp]
    exact Std.OrientedCmp.eq_swap

instance Ext.cmpTrans {α : Type} (c : α → α → Ordering) [Std.TransCmp c] : Std.TransCmp (Ext.cmp c) where
  isLE_trans {x y z} h1 h2 := by
    cases x <;> cases y <;> cases z <;> simp_all [Ext.cmp]
    exact Std.TransCmp.isLE_trans h1 h2

theorem comapTrans {α β : Type} (f : α → β) (c : β → β → Ordering) [Std.TransCmp c] :
    Std.TransCmp (fun a b => c (f a) (f b)) where
  eq_swap := Std.OrientedCmp.eq_swap
  isLE_trans := Std.TransCmp.isLE_trans

theorem thenTrans {α : Type} (c d : α → α → Ordering) [Std.TransCmp c] [Std.TransCmp d] :
    Std.TransCmp (fun a b => (c a b).then (d a b)) :=
  inferInstanceAs (Std.TransCmp (compareLex c d))

instance cmpPairTrans {α β : Type} (c : α → α → Ordering) (d : β → β → Ordering) [Std.TransCmp c]
    [Std.TransCmp d] : Std.TransCmp (cmpPair c d) := by
  have h1 := comapTrans (Prod.fst : α × β → α) c
  have h2 := comapTrans (Prod.snd : α × β → β) d
  exact thenTrans (fun a b : α × β => c a.1 b.1) (fun a b : α × β => d a.2 b.2)

instance cmpPubTrans : Std.TransCmp cmpPub := by
  have h1 := comapTrans PubVer.epoch (compare : Int → Int → Ordering)
  have h2 := comapTrans (fun v : PubVer => stripZeros v.release)
    (List.compareLex (compare : Int → Int → Ordering))
  have h3 := comapTrans Spec.preKey (Ext.cmp (cmpPair (compare : Nat → Nat → Ordering) (compare : Int → Int → Ordering)))
  have h4 := comapTrans Spec.postKey (Ext.cmp (compare : Int → Int → Ordering))
  have h5 := comapTrans Spec.devKey (Ext.cmp (compare : Int → Int → Ordering))
  have h45 := @thenTrans _ _ _ h4 h5
  have h345 := @thenTrans _ _ _ h3 h45
  have h2345 := @thenTrans _ _ _ h2 h345
  exact @thenTrans _ _ _ h1 h2345

instance cmpLocTrans : Std.TransCmp cmpLoc :=
  comapTrans (fun l : List Seg => l.map segKey)
    (List.compareLex (cmpPair (Ext.cmp (compare : Int → Int → Ordering)) (List.compareLex (compare : Char → Char → Ordering))))

instance cmpVerTrans : Std.TransCmp cmpVer := by
  have h1 := comapTrans Ver.toPubVer cmpPub
  have h2 := comapTrans Ver.loc cmpLoc
  exact @thenTrans _ _ _ h1 h2

/-! ### epochs, post, dev -/

theorem ordOf_eq_eq {d : Int} : ordOf d = .eq ↔ d = 0 := by
  unfold ordOf; grind
theorem ordOf_eq_lt {d : Int} : ordOf d = .lt ↔ d < 0 := by
  unfold ordOf; grind
theorem ordOf_eq_gt {d : Int} : ordOf d = .gt ↔ 0 < d := by
  unfold ordOf; grind

theorem ordOf_ite (d e : Int) : ordOf (if d ≠ 0 then d else e) = (ordOf d).then (ordOf e) := by
  by_cases h : d = 0
  · subst h; simp [ordOf]
  · rw [if_pos h]
    unfold ordOf
    by_cases h' : d < 0 <;> simp [h, h']

theorem cmpEpoch_spec {a b : PubVer} (ha : WFPub a) (hb : WFPub b) :
    ordOf (cmpEpoch a b) = compare a.epoch b.epoch := by
  unfold cmpEpoch
  rw [sub64_nonneg ha.epoch.1 ha.epoch.2 hb.epoch.1 hb.epoch.2, ordOf_sub]

theorem cmpPost_spec {a b : PubVer} (ha : WFPub a) (hb : WFPub b) :
    ordOf (cmpPostRelease a b) = Ext.cmp compare (postKey a) (postKey b) := by
  unfold cmpPostRelease postKey
  have h1 := ha.post; have h2 := hb.post
  rcases hpa : a.post with _ | x <;> rcases hpb : b.post with _ | y <;> simp only [Option.getD]
  · simp [Ext.cmp, sub64, wrap64, ordOf]
  · have := h2 y hpb; simp only [Nat63] at this
    rw [sub64, wrap64_eq (by omega) (by omega)]; simp only [Ext.cmp]; rw [ordOf_eq_lt]; omega
  · have := h1 x hpa; simp only [Nat63] at this
    rw [sub64, wrap64_eq (by omega) (by omega)]; simp only [Ext.cmp]; rw [ordOf_eq_gt]; omega
  · have hx := h1 x hpa; have hy := h2 y hpb
    rw [sub64_nonneg hx.1.1 hx.1.2 hy.1.1 hy.1.2, ordOf_sub]; rfl

theorem cmpDev_spec {a b : PubVer} (ha : WFPub a) (hb : WFPub b) :
    ordOf (cmpDevRelease a b) = Ext.cmp compare (devKey a) (devKey b) := by
  unfold cmpDevRelease devKey
  have h1 := ha.dev; have h2 := hb.dev
  rcases hpa : a.dev with _ | x <;> rcases hpb : b.dev with _ | y
  · rfl
  · rfl
  · rfl
  · have hx := h1 x hpa; have hy := h2 y hpb
    simp only [Ext.cmp]
    rw [sub64_nonneg hx.1 hx.2 hy.1 hy.2, ordOf_sub]

/-! ### pre-release -/

theorem order_rank {l : Str} (h : l ∈ spellings) : preReleaseOrder l = some ((preRank l : Int) - 3) := by
  simp only [spellings, List.mem_cons, List.not_mem_nil, or_false] at h
  rcases h with h | h | h | h | h | h | h | h <;> subst h <;> decide

theorem preRank_le (l : Str) : preRank l ≤ 2 := by unfold preRank; split <;> (try split) <;> omega

theorem compare_sub3 (m n : Nat) : compare ((m : Int) - 3) ((n : Int) - 3) = compare m n := by
  rcases Nat.lt_trichotomy m n with h | h | h
  · rw [Nat.compare_eq_lt.2 h, Int.compare_eq_lt]; omega
  · subst h; simp
  · rw [Nat.compare_eq_gt.2 h, Int.compare_eq_gt]; omega

theorem cmpPre_spec {a b : PubVer} (ha : WFPub a) (hb : WFPub b) :
    ∃ d, cmpPreRelease a b = some d ∧
      ordOf d = Ext.cmp (cmpPair compare compare) (Spec.preKey a) (Spec.preKey b) := by
  have key : ∀ v : PubVer, WFPub v → ∃ L N : Int, Pep440.preKey v = some (L, N) ∧ -4 ≤ L ∧ L ≤ 0 ∧ Nat63 N ∧
      ((∃ r : Nat, r ≤ 2 ∧ Spec.preKey v = .fin (r, N) ∧ L = (r : Int) - 3) ∨
       (Spec.preKey v = .negInf ∧ L = -4 ∧ N = 0) ∨ (Spec.preKey v = .posInf ∧ L = 0 ∧ N = 0)) := by
    intro v hv
    unfold Pep440.preKey Spec.preKey
    rcases hp : v.pre with _ | ⟨l, n⟩
    · rcases hq : v.post with _ | q <;> rcases hd : v.dev with _ | d <;> simp [Nat63] <;>
        exact ⟨_, _, ⟨rfl, rfl⟩, by simp⟩
    · have h := hv.pre l n hp
      have hr := preRank_le l
      simp only [order_rank h.1]
      exact ⟨_, n, rfl, by omega, by omega, h.2, Or.inl ⟨preRank l, hr, rfl, rfl⟩⟩
  obtain ⟨aL, aN, ka, a1, a2, a3, sa⟩ := key a ha
  obtain ⟨bL, bN, kb, b1, b2, b3, sb⟩ := key b hb
  unfold cmpPreRelease
  simp only [ka, kb]
  have e1 : sub64 aL bL = aL - bL := by unfold sub64; apply wrap64_eq <;> omega
  have e2 : sub64 aN bN = aN - bN := sub64_nonneg a3.1 a3.2 b3.1 b3.2
  refine ⟨if aL ≠ bL then aL - bL else aN - bN, ?_, ?_⟩
  · rw [e1, e2]; split <;> rfl
  · have h3 : (if aL ≠ bL then aL - bL else aN - bN) = (if aL - bL ≠ 0 then aL - bL else aN - bN) := by
      split <;> split <;> omega
    rw [h3, ordOf_ite, ordOf_sub, ordOf_sub]
    rcases sa with ⟨r, hr, h, hL⟩ | ⟨h, hL, hN⟩ | ⟨h, hL, hN⟩ <;>
    rcases sb with ⟨r', hr', h', hL'⟩ | ⟨h', hL', hN'⟩ | ⟨h', hL', hN'⟩ <;>
    simp only [h, h', Ext.cmp]
    · rw [hL, hL', compare_sub3]; rfl
    · rw [show compare aL bL = .gt from Int.compare_eq_gt.2 (by omega)]; rfl
    · rw [show compare aL bL = .lt from Int.compare_eq_lt.2 (by omega)]; rfl
    · rw [show compare aL bL = .lt from Int.compare_eq_lt.2 (by omega)]; rfl
    · subst hL hN hL' hN'; rfl
    · rw [show compare aL bL = .lt from Int.compare_eq_lt.2 (by omega)]; rfl
    · rw [show compare aL bL = .gt from Int.compare_eq_gt.2 (by omega)]; rfl
    · rw [show compare aL bL = .gt from Int.compare_eq_gt.2 (by omega)]; rfl
    · subst hL hN hL' hN'; rfl

/-! ### release -/

/-- comparison of two lists padded with zeros, as a recursion -/
def padCmp : List Int → List Int → Ordering
  | [], [] => .eq
  | x :: xs, [] => (compare x 0).then (padCmp xs [])
  | [], y :: ys => (compare 0 y).then (padCmp [] ys)
  | x :: xs, y :: ys => (compare x y).then (padCmp xs ys)

theorem stripZeros_nil : stripZeros [] = [] := rfl

theorem stripZeros_cons (x : Int) (xs : List Int) :
    stripZeros (x :: xs) = if stripZeros xs = [] ∧ x = 0 then [] else x :: stripZeros xs := by
  unfold stripZeros
  simp only [List.reverse_cons, List.dropWhile_append, List.reverse_eq_nil_iff]
  by_cases h : xs.reverse.dropWhile (· = 0) = []
  · by_cases hx : x = 0 <;> simp [h, hx]
  · simp [h, List.isEmpty_iff]

theorem padCmp_nil_left {ys : List Int} (h : ∀ y ∈ ys, 0 ≤ y) :
    padCmp [] ys = if stripZeros ys = [] then .eq else .lt := by
  induction ys with
  | nil => simp [padCmp, stripZeros_nil]
  | cons y ys ih =>
    have hy := h y (by simp)
    have ih := ih (fun z hz => h z (by simp [hz]))
    rw [padCmp, stripZeros_cons]
    by_cases h0 : y = 0
    · subst h0; simp only [Int.compare_eq_eq.2 rfl, Ordering.then, ih]
      by_cases hs : stripZeros ys = [] <;> simp [hs]
    · simp only [show compare 0 y = .lt from Int.compare_eq_lt.2 (by omega), Ordering.then]
      simp [h0]

theorem padCmp_nil_right {xs : List Int} (h : ∀ x ∈ xs, 0 ≤ x) :
    padCmp xs [] = if stripZeros xs = [] then .eq else .gt := by
  induction xs with
  | nil => simp [padCmp, stripZeros_nil]
  | cons y ys ih =>
    have hy := h y (by simp)
    have ih := ih (fun z hz => h z (by simp [hz]))
    rw [padCmp, stripZeros_cons]
    by_cases h0 : y = 0
    · subst h0; simp only [Int.compare_eq_eq.2 rfl, Ordering.then, ih]
      by_cases hs : stripZeros ys = [] <;> simp [hs]
    · simp only [show compare y 0 = .gt from Int.compare_eq_gt.2 (by omega), Ordering.then]
      simp [h0]

theorem padCmp_spec {xs ys : List Int} (hx : ∀ x ∈ xs, 0 ≤ x) (hy : ∀ y ∈ ys, 0 ≤ y) :
    padCmp xs ys = List.compareLex compare (stripZeros xs) (stripZeros ys) := by
  induction xs generalizing ys with
  | nil =>
    rw [padCmp_nil_left hy, stripZeros_nil]
    by_cases h : stripZeros ys = []
    · simp [h, List.compareLex_nil_nil]
    · rw [if_neg h]; obtain ⟨z, zs, hz⟩ := List.exists_cons_of_ne_nil h; rw [hz]; simp [List.compareLex_nil_cons]
  | cons x xs ih =>
    cases ys with
    | nil =>
      rw [padCmp_nil_right hx, stripZeros_nil]
      by_cases h : stripZeros (x :: xs) = []
      · simp [h, List.compareLex_nil_nil]
      · rw [if_neg h]; obtain ⟨z, zs, hz⟩ := List.exists_cons_of_ne_nil h; rw [hz]; simp [List.compareLex_cons_nil]
    | cons y ys =>
      have hx0 := hx x (by simp)
      have hy0 := hy y (by simp)
      have ih := @ih ys (fun z hz => hx z (by simp [hz])) (fun z hz => hy z (by simp [hz]))
      rw [padCmp, ih, stripZeros_cons, stripZeros_cons]
      by_cases h1 : stripZeros xs = [] ∧ x = 0 <;> by_cases h2 : stripZeros ys = [] ∧ y = 0
      · simp [h1, h2, List.compareLex_nil_nil]
      · rw [if_pos h1, if_neg h2, h1.1, h1.2]
        by_cases hy1 : y = 0
        · have : stripZeros ys ≠ [] := fun h => h2 ⟨h, hy1⟩
          obtain ⟨z, zs, hz⟩ := List.exists_cons_of_ne_nil this
          subst hy1; rw [hz]; simp [List.compareLex_nil_cons]
        · rw [show compare 0 y = .lt from Int.compare_eq_lt.2 (by omega)]; simp [List.compareLex_nil_cons]
      · rw [if_neg h1, if_pos h2, h2.1, h2.2]
        by_cases hx1 : x = 0
        · have : stripZeros xs ≠ [] := fun h => h1 ⟨h, hx1⟩
          obtain ⟨z, zs, hz⟩ := List.exists_cons_of_ne_nil this
          subst hx1; rw [hz]; simp [List.compareLex_cons_nil]
        · rw [show compare x 0 = .gt from Int.compare_eq_gt.2 (by omega)]; simp [List.compareLex_cons_nil]
      · rw [if_neg h1, if_neg h2, List.compareLex_cons_cons]

theorem getD_lt {l : List Int} {i : Nat} (h : i < l.length) : l.getD i 0 = l[i] := by
  simp [List.getD, List.getElem?_eq_getElem h]

theorem getD_ge {l : List Int} {i : Nat} (h : l.length ≤ i) : l.getD i 0 = 0 := by
  simp [List.getD, List.getElem?_eq_none h]

theorem getD_nonneg {l : List Int} (h : ∀ n ∈ l, Nat63 n) (i : Nat) : Nat63 (l.getD i 0) := by
  by_cases hi : i < l.length
  · rw [getD_lt hi]; exact h _ (List.getElem_mem hi)
  · rw [getD_ge (by omega)]; unfold Nat63; omega

theorem cmpReleaseLoop_pad {a b : PubVer} (ha : WFPub a) (hb : WFPub b) (k i : Nat)
    (h1 : a.release.length ≤ i + k) (h2 : b.release.length ≤ i + k) :
    ordOf (cmpReleaseLoop a b i k) = padCmp (a.release.drop i) (b.release.drop i) := by
  induction k generalizing i with
  | zero =>
    rw [List.drop_eq_nil_of_le (by omega), List.drop_eq_nil_of_le (by omega)]
    simp [cmpReleaseLoop, padCmp, ordOf]
  | succ k ih =>
    have ih := ih (i + 1) (by omega) (by omega)
    rw [cmpReleaseLoop]
    rw [ordOf_ite, ih]
    have n1 := getD_nonneg ha.release i
    have n2 := getD_nonneg hb.release i
    unfold PubVer.releaseSegment
    rw [sub64_nonneg n1.1 n1.2 n2.1 n2.2, ordOf_sub]
    by_cases c1 : i < a.release.length <;> by_cases c2 : i < b.release.length
    · rw [List.drop_eq_getElem_cons c1, List.drop_eq_getElem_cons c2, padCmp,
        getD_lt c1, getD_lt c2]
    · rw [List.drop_eq_getElem_cons c1, List.drop_eq_nil_of_le (by omega : b.release.length ≤ i), padCmp,
        getD_lt c1, getD_ge (by omega),
        List.drop_eq_nil_of_le (by omega : b.release.length ≤ i + 1)]
    · rw [List.drop_eq_getElem_cons c2, List.drop_eq_nil_of_le (by omega : a.release.length ≤ i), padCmp,
        getD_lt c2, getD_ge (by omega),
        List.drop_eq_nil_of_le (by omega : a.release.length ≤ i + 1)]
    · rw [List.drop_eq_nil_of_le (by omega : a.release.length ≤ i), List.drop_eq_nil_of_le (by omega : b.release.length ≤ i),
        List.drop_eq_nil_of_le (by omega : a.release.length ≤ i + 1),
        List.drop_eq_nil_of_le (by omega : b.release.length ≤ i + 1),
        getD_ge (by omega), getD_ge (by omega)]
      rfl

theorem cmpRelease_pad {a b : PubVer} (ha : WFPub a) (hb : WFPub b) :
    ordOf (cmpRelease a b) = padCmp a.release b.release := by
  unfold cmpRelease
  rw [cmpReleaseLoop_pad ha hb _ _ (by omega) (by omega)]; rfl

theorem cmpRelease_spec {a b : PubVer} (ha : WFPub a) (hb : WFPub b) :
    ordOf (cmpRelease a b) = List.compareLex compare (stripZeros a.release) (stripZeros b.release) := by
  rw [cmpRelease_pad ha hb, padCmp_spec (fun n h => (ha.release n h).1) (fun n h => (hb.release n h).1)]

/-! ### public and local versions -/

theorem cmpPub_spec {a b : PubVer} (ha : WFPub a) (hb : WFPub b) :
    ∃ d, a.cmp b = some d ∧ ordOf d = cmpPub a b := by
  obtain ⟨d, hd, hs⟩ := cmpPre_spec ha hb
  refine ⟨if cmpEpoch a b ≠ 0 then cmpEpoch a b else if cmpRelease a b ≠ 0 then cmpRelease a b else
    if d ≠ 0 then d else if cmpPostRelease a b ≠ 0 then cmpPostRelease a b else cmpDevRelease a b, ?_, ?_⟩
  · unfold PubVer.cmp; rw [hd]; grind
  · rw [ordOf_ite, ordOf_ite, ordOf_ite, ordOf_ite, cmpEpoch_spec ha hb, cmpRelease_spec ha hb, hs,
      cmpPost_spec ha hb, cmpDev_spec ha hb]
    rfl

theorem charCmp_lt {c d : Char} : compare c d = .lt ↔ c < d :=
  compareOfLessAndEq_eq_lt
theorem charCmp_gt {c d : Char} : compare c d = .gt ↔ d < c := by
  rw [Std.OrientedCmp.eq_swap (cmp := compare), Ordering.swap_eq_gt, charCmp_lt]

theorem strCmp_spec (x y : Str) :
    ordOf (if strLt x y then -1 else if strLt y x then 1 else 0) = List.compareLex compare x y := by
  have hl : ∀ x y : Str, x < y ↔ List.compareLex compare x y = .lt := by
    intro x
    induction x with
    | nil => intro y; cases y <;> simp [List.compareLex_nil_nil, List.compareLex_nil_cons]
    | cons c x ih =>
      intro y
      cases y with
      | nil => simp [List.compareLex_cons_nil]
      | cons d y =>
        rw [List.compareLex_cons_cons, List.cons_lt_cons_iff, ih]
        rcases h : compare c d with _ | _ | _
        · simp [charCmp_lt.1 h]
        · rw [Std.LawfulEqOrd.compare_eq_iff_eq] at h; subst h; simp
        · have := charCmp_gt.1 h
          simp only [Ordering.then]
          constructor
          · rintro (h' | ⟨h', _⟩)
            · exact absurd h' (Char.lt_asymm this)
            · subst h'; exact absurd this (Char.lt_irrefl _)
          · intro h'; cases h'
  unfold strLt
  simp only [decide_eq_true_eq]
  rcases h : List.compareLex compare x y with _ | _ | _
  · rw [if_pos ((hl x y).2 h)]; rfl
  · have h1 : ¬ x < y := fun h' => by rw [(hl x y).1 h'] at h; cases h
    have h2 : ¬ y < x := fun h' => by
      rw [Std.OrientedCmp.eq_swap (cmp := List.compareLex compare), (hl y x).1 h'] at h; cases h
    rw [if_neg h1, if_neg h2]; rfl
  · have h1 : ¬ x < y := fun h' => by rw [(hl x y).1 h'] at h; cases h
    have h2 : y < x := by
      rw [hl, Std.OrientedCmp.eq_swap (cmp := List.compareLex compare), h]; rfl
    rw [if_neg h1, if_pos h2]; rfl

theorem cmpSeg_spec {x y : Seg} (hx : WFLoc [x]) (hy : WFLoc [y]) :
    ordOf (cmpLocalSegment (some x) (some y)) =
      cmpPair (Ext.cmp compare) (List.compareLex compare) (segKey x) (segKey y) := by
  cases x with
  | int n => cases y with
    | int m =>
      have h1 := hx n (by simp); have h2 := hy m (by simp)
      rw [cmpLocalSegment, sub32_nonneg h1.1 h1.2 h2.1 h2.2, ordOf_sub]
      simp [segKey, cmpPair, Ext.cmp, List.compareLex_nil_nil]
    | str t => rfl
  | str s => cases y with
    | int m => rfl
    | str t => rw [cmpLocalSegment, strCmp_spec]; rfl

theorem cmpLocalLoop_spec {a b : List Seg} (ha : WFLoc a) (hb : WFLoc b) (k i : Nat)
    (h1 : a.length ≤ i + k) (h2 : b.length ≤ i + k) :
    ordOf (cmpLocalLoop a b i k) = cmpLoc (a.drop i) (b.drop i) := by
  induction k generalizing i with
  | zero =>
    rw [List.drop_eq_nil_of_le (by omega), List.drop_eq_nil_of_le (by omega)]
    simp [cmpLocalLoop, ordOf, cmpLoc, List.compareLex_nil_nil]
  | succ k ih =>
    have ih := ih (i + 1) (by omega) (by omega)
    rw [cmpLocalLoop, ordOf_ite, ih]
    by_cases c1 : i < a.length <;> by_cases c2 : i < b.length
    · rw [List.drop_eq_getElem_cons c1, List.drop_eq_getElem_cons c2, List.getElem?_eq_getElem c1,
        List.getElem?_eq_getElem c2,
        cmpSeg_spec (fun n h => ha n (by simp at h; rw [h]; exact List.getElem_mem c1))
          (fun n h => hb n (by simp at h; rw [h]; exact List.getElem_mem c2))]
      simp only [cmpLoc, List.map_cons, List.compareLex_cons_cons]
    · rw [List.drop_eq_getElem_cons c1, List.drop_eq_nil_of_le (by omega : b.length ≤ i),
        List.getElem?_eq_getElem c1, List.getElem?_eq_none (by omega : b.length ≤ i)]
      simp only [cmpLocalSegment, cmpLoc, List.map_cons, List.map_nil, List.compareLex_cons_nil]; rfl
    · rw [List.drop_eq_getElem_cons c2, List.drop_eq_nil_of_le (by omega : a.length ≤ i),
        List.getElem?_eq_getElem c2, List.getElem?_eq_none (by omega : a.length ≤ i)]
      simp only [cmpLocalSegment, cmpLoc, List.map_cons, List.map_nil, List.compareLex_nil_cons]; rfl
    · rw [List.drop_eq_nil_of_le (by omega : a.length ≤ i), List.drop_eq_nil_of_le (by omega : b.length ≤ i),
        List.drop_eq_nil_of_le (by omega : a.length ≤ i + 1), List.drop_eq_nil_of_le (by omega : b.length ≤ i + 1),
        List.getElem?_eq_none (by omega : a.length ≤ i), List.getElem?_eq_none (by omega : b.length ≤ i)]
      simp [cmpLocalSegment, ordOf]

theorem cmpLocal_spec {a b : List Seg} (ha : WFLoc a) (hb : WFLoc b) : ordOf (cmpLocal a b) = cmpLoc a b := by
  unfold cmpLocal
  rw [cmpLocalLoop_spec ha hb _ _ (by omega) (by omega)]; rfl

theorem cmpVer_spec {a b : Ver} (ha : WF a) (hb : WF b) : ∃ d, a.cmp b = some d ∧ ordOf d = cmpVer a b := by
  obtain ⟨d, hd, hs⟩ := cmpPub_spec ha.pub hb.pub
  refine ⟨if d ≠ 0 then d else cmpLocal a.loc b.loc, ?_, ?_⟩
  · unfold Ver.cmp; rw [hd]; grind
  · rw [ordOf_ite, hs, cmpLocal_spec ha.loc hb.loc]; rfl

end Pep440
