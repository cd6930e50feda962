import Verif.Pep440.PropsOrder
/-! Helper lemmas about specifier clauses and the clause parser (for C09–C23). -/
namespace Pep440
open Go Spec

theorem comp_getD (v : PubVer) (i : Nat) : comp v i = v.releaseSegment i := by
  unfold comp PubVer.releaseSegment
  split
  · rename_i h; simp [h]
  · rename_i h; simp [h]

theorem sub64_zero {a b : Int} (ha : Nat63 a) (hb : Nat63 b) : sub64 a b = 0 ↔ a = b := by
  rw [sub64_nonneg ha.1 ha.2 hb.1 hb.2]; omega

theorem comp_nat63 {v : PubVer} (h : ∀ n ∈ v.release, Nat63 n) (i : Nat) : Nat63 (v.releaseSegment i) :=
  getD_nonneg h i

theorem cmpReleaseLoop_zero {a b : PubVer} (ha : ∀ n ∈ a.release, Nat63 n) (hb : ∀ n ∈ b.release, Nat63 n) (k i : Nat) :
    cmpReleaseLoop a b i k = 0 ↔ ∀ j, i ≤ j → j < i + k → comp a j = comp b j := by
  induction k generalizing i with
  | zero => simp only [cmpReleaseLoop, true_iff]; intro j h1 h2; omega
  | succ k ih =>
    rw [cmpReleaseLoop]
    have h0 := sub64_zero (comp_nat63 ha i) (comp_nat63 hb i)
    by_cases h : sub64 (a.releaseSegment i) (b.releaseSegment i) = 0
    · rw [if_neg (by simpa using h), ih]
      rw [h0, ← comp_getD, ← comp_getD] at h
      constructor
      · intro hj j h1 h2
        rcases Nat.eq_or_lt_of_le h1 with e | e
        · exact e ▸ h
        · exact hj j e (by omega)
      · intro hj j h1 h2; exact hj j (by omega) (by omega)
    · rw [if_pos (by simpa using h)]
      refine iff_of_false h (fun hj => h ?_)
      rw [h0, ← comp_getD, ← comp_getD]
      exact hj i (by omega) (by omega)

theorem cmpRelease_zero {a b : PubVer} (ha : ∀ n ∈ a.release, Nat63 n) (hb : ∀ n ∈ b.release, Nat63 n) :
    cmpRelease a b = 0 ↔ ∀ i, comp a i = comp b i := by
  unfold cmpRelease
  rw [cmpReleaseLoop_zero ha hb]
  constructor
  · intro h i
    by_cases hi : i < 0 + max a.release.length b.release.length
    · exact h i (by omega) hi
    · unfold comp; rw [dif_neg (by omega), dif_neg (by omega)]
  · intro h j _ _; exact h j

theorem cmpEpoch_zero {a b : PubVer} (ha : WFPub a) (hb : WFPub b) : cmpEpoch a b = 0 ↔ a.epoch = b.epoch :=
  sub64_zero ha.epoch hb.epoch

theorem cmpPost_zero {a b : PubVer} (ha : WFPub a) (hb : WFPub b) : cmpPostRelease a b = 0 ↔ a.post = b.post := by
  have := cmpPost_spec ha hb
  rw [← ordOf_eq_eq, this]
  unfold postKey
  rcases a.post with _ | x <;> rcases b.post with _ | y <;> simp [Ext.cmp]

theorem comp_take (v : PubVer) (n i : Nat) :
    comp { v with release := if v.release.length > n then v.release.take n else v.release } i =
      if i < n then comp v i else (if v.release.length > n then 0 else comp v i) := by
  unfold comp
  by_cases h : v.release.length > n
  · simp only [h, if_true, List.length_take, List.getElem_take]
    by_cases hi : i < n
    · rw [dif_pos (by omega), if_pos hi, dif_pos (by omega)]
    · rw [dif_neg (by omega), if_neg hi]
  · simp only [h, if_false, ite_self]

theorem preOrder_getD {l l' : Str} (h : l ∈ spellings) (h' : l' ∈ spellings) :
    (preReleaseOrder l').getD 0 = (preReleaseOrder l).getD 0 ↔ preRank l = preRank l' := by
  rw [order_rank h, order_rank h']; simp; omega

theorem prefixMatch_iff {s v : Ver} (hs : WFPub s.toPubVer) (hv : WFPub v.toPubVer) :
    matchPrefixMatch s v = true ↔ PrefixMatches s.toPubVer v.toPubVer := by
  unfold matchPrefixMatch PrefixMatches
  by_cases he : cmpEpoch s.toPubVer v.toPubVer = 0
  case neg =>
    rw [if_pos he]
    rw [cmpEpoch_zero hs hv] at he
    simp [he]
  rw [if_neg (by simpa using he)]
  rw [cmpEpoch_zero hs hv] at he
  by_cases hp : s.post = none ∧ s.pre = none
  · rw [if_pos (by simpa using hp)]
    simp only [hp, he, ne_eq, not_true_eq_false, or_self, false_imp_iff, and_true, true_and, decide_eq_true_eq,
      true_imp_iff]
    rw [cmpRelease_zero hs.release (by
      intro n hn
      simp only at hn
      split at hn
      · exact hv.release n (List.mem_of_mem_take hn)
      · exact hv.release n hn)]
    constructor
    · intro h i hi
      have := h i
      rw [comp_take, if_pos hi] at this; exact this
    · intro h i
      rw [comp_take]
      split
      · rename_i hi; exact h i hi
      · rename_i hi
        split
        · unfold comp; rw [dif_neg hi]
        · rename_i h2
          unfold comp; rw [dif_neg hi, dif_neg (by omega)]
  · rw [if_neg (by simpa using hp)]
    have hp1 : ¬ (s.pre = none ∧ s.post = none) := fun h => hp h.symm
    have hp2 : s.pre ≠ none ∨ s.post ≠ none := by
      by_cases h : s.pre = none
      · exact Or.inr (fun h' => hp1 ⟨h, h'⟩)
      · exact Or.inl h
    simp only [he, hp1, false_imp_iff, true_and, hp2, true_imp_iff]
    by_cases hr : cmpRelease s.toPubVer v.toPubVer = 0
    case neg =>
      rw [if_pos hr]
      rw [cmpRelease_zero hs.release hv.release] at hr
      simp [hr]
    rw [if_neg (by simpa using hr)]
    rw [cmpRelease_zero hs.release hv.release] at hr
    have hpost := cmpPost_zero hs hv
    have tail : (if s.post.isNone = true then true
        else if cmpPostRelease s.toPubVer v.toPubVer ≠ 0 then false else true) = true ↔ (s.post ≠ none → s.post = v.post) := by
      rcases hsp : s.post with _ | x
      · simp
      · rw [hsp] at hpost
        simp only [Option.isNone_some, Bool.false_eq_true, if_false]
        by_cases h : cmpPostRelease s.toPubVer v.toPubVer = 0
        · simp [h, hpost.1 h]
        · rw [if_pos h]; simp; exact fun e => h (hpost.2 e)
    rcases hspre : s.pre with _ | ⟨l, n⟩ <;> rcases hvpre : v.pre with _ | ⟨l', n'⟩
    · simp only [SamePre, hr, implies_true, true_and, Option.isNone_none, ne_eq, not_true_eq_false, if_false,
        Bool.false_eq_true]
      exact tail
    · simp [SamePre]
    · simp [SamePre]
    · have e := preOrder_getD (hs.pre l n hspre).1 (hv.pre l' n' hvpre).1
      simp only [SamePre, hr, implies_true, true_and, Option.isNone_some, ne_eq, not_true_eq_false, if_false,
        decide_eq_true_eq, e]
      by_cases hc : preRank l = preRank l' ∧ n = n'
      · rw [if_neg (fun h => h.elim (fun h => h hc.1) (fun h => h hc.2.symm))]
        simp only [hc, and_self, true_and]
        exact tail
      · rw [if_pos (by by_cases h : preRank l = preRank l'
                       · exact Or.inr (fun e => hc ⟨h, e.symm⟩)
                       · exact Or.inl h)]
        simp [hc]

theorem compatBase_wf {s : Ver} (h : WFPub s.toPubVer) : WFPub (compatBase s.toPubVer).toPubVer where
  epoch := h.epoch
  release := fun n hn => h.release n (List.dropLast_subset _ hn)
  pre := by simp [compatBase]
  post := by simp [compatBase]
  dev := by simp [compatBase]

theorem matchPrefix_pub (s s' v : Ver) (h1 : s.epoch = s'.epoch) (h2 : s.release = s'.release) (h3 : s.pre = s'.pre)
    (h4 : s.post = s'.post) : matchPrefixMatch s v = matchPrefixMatch s' v := by
  unfold matchPrefixMatch cmpEpoch cmpPostRelease
  simp only [h1, h2, h3, h4]
  have : ∀ b, cmpRelease s.toPubVer b = cmpRelease s'.toPubVer b := by
    intro b
    unfold cmpRelease
    rw [h2]
    have : ∀ k i, cmpReleaseLoop s.toPubVer b i k = cmpReleaseLoop s'.toPubVer b i k := by
      intro k
      induction k with
      | zero => intro i; rfl
      | succ k ih => intro i; rw [cmpReleaseLoop, cmpReleaseLoop, ih]; unfold PubVer.releaseSegment; rw [h2]
    exact this _ _
  simp only [this]

theorem matchCompatible_eq {s v : Ver} (h : s.release ≠ []) :
    matchCompatible s v = (matchGE s v).map (· && matchPrefixMatch (compatBase s.toPubVer) v) := by
  unfold matchCompatible
  rw [if_neg (by simpa using h)]
  have : matchPrefixMatch
      { s with release := s.release.take (s.release.length - 1), pre := none, post := none, dev := none } v = matchPrefixMatch (compatBase s.toPubVer) v :=
    matchPrefix_pub _ _ _ rfl (by simp [compatBase, List.dropLast_eq_take]) rfl rfl
  simp only [this]
  rcases matchGE s v with _ | g <;> rfl

/-- sign facts for the ordered operators -/
theorem ordered_spec {s v : Ver} (hs : WF s) (hv : WF v) :
    matchLE s v = some (decide (cmpVer v s ≠ .gt)) ∧ matchGE s v = some (decide (cmpVer v s ≠ .lt)) ∧
    matchLT s v = some (decide (cmpVer v s = .lt)) ∧ matchGT s v = some (decide (cmpVer v s = .gt)) := by
  obtain ⟨d, hd, hsd⟩ := cmpVer_spec hs hv
  have e : cmpVer v s = (ordOf d).swap := by rw [hsd, ← Std.OrientedCmp.eq_swap (cmp := cmpVer)]
  unfold matchLE matchGE matchLT matchGT
  simp only [hd, Option.map_some, Option.some.injEq, decide_eq_decide, e]
  rcases Int.lt_trichotomy d 0 with h | h | h
  · rw [ordOf_eq_lt.2 h]; simp; omega
  · rw [ordOf_eq_eq.2 h]; simp; omega
  · rw [ordOf_eq_gt.2 h]; simp; omega

theorem strict_spec {s v : Ver} (hs : WF s) (hv : WF v) :
    matchStrictMatch s v = some (decide (if s.loc = [] then cmpPub v.toPubVer s.toPubVer = .eq else cmpVer v s = .eq)) := by
  unfold matchStrictMatch
  have sw : ∀ o : Ordering, o.swap = .eq ↔ o = .eq := by intro o; cases o <;> simp
  by_cases h : s.loc = []
  · rw [if_pos (by simpa using h)]
    obtain ⟨d, hd, hsd⟩ := cmpPub_spec hs.pub hv.pub
    simp only [hd, Option.map_some, h, if_true, Option.some.injEq, decide_eq_decide]
    rw [← ordOf_eq_eq, hsd, Std.OrientedCmp.eq_swap (cmp := cmpPub), sw]
  · rw [if_neg (by simpa using h)]
    obtain ⟨d, hd, hsd⟩ := cmpVer_spec hs hv
    simp only [hd, Option.map_some, h, if_false, Option.some.injEq, decide_eq_decide]
    rw [← ordOf_eq_eq, hsd, Std.OrientedCmp.eq_swap (cmp := cmpVer), sw]

/-- clauses never panic on well-formed input -/
theorem clause_total {c : Clause} {v : Ver} (hc : WFClause c) (hv : WF v) : ∃ b, c.match v = some b := by
  obtain ⟨op, s⟩ := c
  obtain ⟨hs, hr⟩ := hc
  have o := ordered_spec hs hv
  unfold Clause.match
  cases op <;> simp only
  · rw [matchCompatible_eq hr, o.2.1]; exact ⟨_, rfl⟩
  · rw [strict_spec hs hv]; exact ⟨_, rfl⟩
  · exact ⟨_, rfl⟩
  · rw [matchStrictExclude, strict_spec hs hv]; exact ⟨_, rfl⟩
  · exact ⟨_, rfl⟩
  · rw [o.1]; exact ⟨_, rfl⟩
  · rw [o.2.1]; exact ⟨_, rfl⟩
  · rw [o.2.2.1]; exact ⟨_, rfl⟩
  · rw [o.2.2.2]; exact ⟨_, rfl⟩

theorem specMatch_true {sp : Specifier} {v : Ver} : specMatch sp v = some true ↔ ∀ c ∈ sp, c.match v = some true := by
  induction sp with
  | nil => simp [specMatch]
  | cons c cs ih =>
    rw [specMatch]
    rcases h : c.match v with _ | (_ | _)
    · simp [h]
    · simp [h]
    · simp [h, ih]

theorem specMatch_total {sp : Specifier} {v : Ver} (hs : ∀ c ∈ sp, WFClause c) (hv : WF v) :
    ∃ b, specMatch sp v = some b := by
  induction sp with
  | nil => exact ⟨_, rfl⟩
  | cons c cs ih =>
    rw [specMatch]
    obtain ⟨b, hb⟩ := clause_total (hs c (by simp)) hv
    rw [hb]
    cases b
    · exact ⟨_, rfl⟩
    · exact ih (fun c hc => hs c (by simp [hc]))

end Pep440
