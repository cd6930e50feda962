import Verif.Pep440.PropsOperators
/-! C17 for a single clause, exactly, in terms of the versions matched. -/
namespace Pep440
open Go Spec

theorem sub64_pos {x y : Int} (hx : Nat63 x) (hy : Nat63 y) (h : y < x) : 0 < sub64 x y := by
  rw [sub64_nonneg hx.1 hx.2 hy.1 hy.2]; omega

theorem sub64_neg {x y : Int} (hx : Nat63 x) (hy : Nat63 y) (h : x < y) : sub64 x y < 0 := by
  rw [sub64_nonneg hx.1 hx.2 hy.1 hy.2]; omega

/-- smaller by the epoch or by the first number of the release -/
def FirstLess (w v : Ver) : Prop :=
  w.epoch < v.epoch ∨ w.epoch = v.epoch ∧ ∃ m n, w.release.head? = some m ∧ v.release.head? = some n ∧ m < n

theorem cmpRelease_first {a b : PubVer} {m n : Int} (ha : a.release.head? = some m) (hb : b.release.head? = some n)
    (h : sub64 m n ≠ 0) : cmpRelease a b = sub64 m n := by
  unfold cmpRelease
  cases hra : a.release with
  | nil => rw [hra] at ha; cases ha
  | cons x xs =>
    cases hrb : b.release with
    | nil => rw [hrb] at hb; cases hb
    | cons y ys =>
      rw [hra] at ha; rw [hrb] at hb
      simp at ha hb
      subst ha hb
      have : max (x :: xs).length (y :: ys).length = (max xs.length ys.length) + 1 := by
        simp only [List.length_cons]; omega
      rw [this, cmpReleaseLoop]
      simp only [PubVer.releaseSegment, hra, hrb]
      simp [h]

theorem firstLess_cmp {w v : Ver} (pw : Parsed w) (pv : Parsed v) (h : FirstLess w v) :
    (∃ d, v.cmp w = some d ∧ d > 0) ∧ ∃ d, w.cmp v = some d ∧ d < 0 := by
  have ver : ∀ {a b : Ver} {d : Int}, a.toPubVer.cmp b.toPubVer = some d → d ≠ 0 → a.cmp b = some d := by
    intro a b d h1 h2
    unfold Ver.cmp
    rw [h1]; simp [h2]
  rcases h with h | ⟨he, m, n, hm, hn, h⟩
  · have p1 := sub64_pos pv.epoch pw.epoch h
    have p2 := sub64_neg pw.epoch pv.epoch h
    have e1 : cmpEpoch v.toPubVer w.toPubVer ≠ 0 := by unfold cmpEpoch; omega
    have e2 : cmpEpoch w.toPubVer v.toPubVer ≠ 0 := by unfold cmpEpoch; omega
    refine ⟨⟨_, ver (by unfold PubVer.cmp; rw [if_pos e1]) e1, p1⟩, ⟨_, ver (by unfold PubVer.cmp; rw [if_pos e2]) e2, p2⟩⟩
  · have nm : Nat63 m := pw.releaseNN m (List.mem_of_mem_head? hm)
    have nn : Nat63 n := pv.releaseNN n (List.mem_of_mem_head? hn)
    have p1 := sub64_pos nn nm h
    have p2 := sub64_neg nm nn h
    have r1 := cmpRelease_first (a := v.toPubVer) (b := w.toPubVer) hn hm (by omega)
    have r2 := cmpRelease_first (a := w.toPubVer) (b := v.toPubVer) hm hn (by omega)
    have e1 : cmpEpoch v.toPubVer w.toPubVer = 0 := by unfold cmpEpoch; rw [he, sub64_self]
    have e2 : cmpEpoch w.toPubVer v.toPubVer = 0 := by unfold cmpEpoch; rw [he, sub64_self]
    have z1 : cmpRelease v.toPubVer w.toPubVer ≠ 0 := by omega
    have z2 : cmpRelease w.toPubVer v.toPubVer ≠ 0 := by omega
    refine ⟨⟨_, ver (by unfold PubVer.cmp; rw [if_neg (by simp [e1]), if_pos z1]) z1, by omega⟩,
      ⟨_, ver (by unfold PubVer.cmp; rw [if_neg (by simp [e2]), if_pos z2]) z2, by omega⟩⟩

theorem parsed_text {v : Ver} (p : Parsed v) (hl : v.loc = []) : ∃ t, v.string = some t ∧ parseVersion t = .ok v := by
  obtain ⟨t, h1, h2⟩ := parse_printed (p.readable (by rw [hl]; simp))
  rw [p.canonPre_id] at h2
  exact ⟨t, h1, h2⟩

/-- a version that `==v.*` matches and `==v` does not -/
theorem longer {v : Ver} (p : Parsed v) (hl : v.loc = []) (hd : v.dev = none) : ∃ x, Parsed x ∧ x.loc = [] ∧
    matchPrefixMatch v x = true ∧ matchStrictMatch v x = some false := by
  have strict : ∀ (x : Ver) (d : Int), v.toPubVer.cmp x.toPubVer = some d → d ≠ 0 → matchStrictMatch v x = some false := by
    intro x d h1 h2
    unfold matchStrictMatch
    rw [hl, if_pos (by rfl), h1]
    simp [h2]
  have eself : ∀ x : Ver, x.epoch = v.epoch → cmpEpoch v.toPubVer x.toPubVer = 0 := by
    intro x h; unfold cmpEpoch; rw [h, sub64_self]
  by_cases hpp : v.post = none ∧ v.pre = none
  · obtain ⟨hpost, hpre⟩ := hpp
    let x : Ver := { v with release := v.release ++ [1] }
    refine ⟨x, ⟨p.epoch, by simp [x], ?_, p.pre, p.post, p.dev, p.locInt, p.locStr⟩, hl, ?_, ?_⟩
    · intro n hn
      rcases List.mem_append.1 hn with hn | hn
      · exact p.releaseNN n hn
      · simp at hn; subst hn; exact ⟨by decide, by decide⟩
    · unfold matchPrefixMatch
      rw [if_neg (by rw [eself x rfl]; simp), if_pos (by simp [hpost, hpre])]
      have : (if x.release.length > v.release.length then x.release.take v.release.length else x.release) = v.release := by
        simp [x]
      simp only [this]
      have hc : ∀ b : PubVer, b.release = v.release → cmpRelease v.toPubVer b = 0 := by
        intro b hb
        unfold cmpRelease
        rw [hb]
        generalize max v.release.length v.release.length = k
        have : ∀ k i, cmpReleaseLoop v.toPubVer b i k = 0 := by
          intro k
          induction k with
          | zero => intro i; rfl
          | succ k ih =>
            intro i
            rw [cmpReleaseLoop]
            simp only [PubVer.releaseSegment, hb, sub64_self, ih]
            simp
        exact this k 0
      rw [hc _ rfl]; rfl
    · have hr : cmpRelease v.toPubVer x.toPubVer = -1 := by
        unfold cmpRelease
        have hm : max v.release.length x.release.length = v.release.length + 1 := by simp [x]
        rw [hm]
        have : ∀ k i, i + k = v.release.length + 1 → i ≤ v.release.length → cmpReleaseLoop v.toPubVer x.toPubVer i k = -1 := by
          intro k
          induction k with
          | zero => intro i h1 h2; omega
          | succ k ih =>
            intro i h1 h2
            rw [cmpReleaseLoop]
            by_cases hi : i < v.release.length
            · have : x.toPubVer.releaseSegment i = v.toPubVer.releaseSegment i := by
                simp only [PubVer.releaseSegment, x, List.getD_eq_getElem?_getD]
                rw [List.getElem?_append_left hi]
              simp only [this, sub64_self]
              simpa using ih (i + 1) (by omega) (by omega)
            · have hi : i = v.release.length := by omega
              subst hi
              have e1 : v.toPubVer.releaseSegment v.release.length = 0 := by simp [PubVer.releaseSegment]
              have e2 : x.toPubVer.releaseSegment v.release.length = 1 := by simp [PubVer.releaseSegment, x]
              rw [e1, e2]
              exact if_pos (by decide)
        exact this _ 0 (by omega) (by omega)
      refine strict x (-1) ?_ (by decide)
      unfold PubVer.cmp
      rw [if_neg (by rw [eself x rfl]; simp), if_pos (by rw [hr]; decide), hr]
  · let x : Ver := { v with dev := some 0 }
    have hrel : cmpRelease v.toPubVer x.toPubVer = 0 := by
      have : ∀ k i, cmpReleaseLoop v.toPubVer x.toPubVer i k = 0 := by
        intro k
        induction k with
        | zero => intro i; rfl
        | succ k ih =>
          intro i
          rw [cmpReleaseLoop]
          simp only [PubVer.releaseSegment, x, sub64_self]
          simpa using ih (i + 1)
      exact this _ 0
    have hpost : cmpPostRelease v.toPubVer x.toPubVer = 0 := sub64_self _
    refine ⟨x, ⟨p.epoch, p.release, p.releaseNN, p.pre, p.post, ?_, p.locInt, p.locStr⟩, hl, ?_, ?_⟩
    · intro n hn
      have : n = 0 := by simpa [x] using hn.symm
      subst this; exact ⟨by decide, by decide⟩
    · unfold matchPrefixMatch
      rw [if_neg (by rw [eself x rfl]; simp), if_neg (by simpa using hpp), if_neg (by rw [hrel]; simp),
        if_neg (by simp [x]), if_neg (by
          change ¬ ((match v.pre, v.pre with
            | some (sl, sn), some (vl, vn) => decide ((preReleaseOrder vl).getD 0 ≠ (preReleaseOrder sl).getD 0 ∨ vn ≠ sn)
            | _, _ => false) = true)
          rcases v.pre with _ | ⟨l, n⟩ <;> simp)]
      rw [hpost]
      simp
    · have hk : preKey x.toPubVer = preKey v.toPubVer := by
        unfold preKey
        change (match v.pre with
          | some (l, n) => match preReleaseOrder l with
            | some k => some (k, n)
            | none => none
          | none => if (some (0 : Int)).isSome && v.post.isNone then some (-4, 0) else some (0, 0)) = _
        cases hp : v.pre with
        | some ln => rfl
        | none =>
          have : v.post ≠ none := fun h => hpp ⟨h, hp⟩
          cases hq : v.post with
          | none => exact absurd hq this
          | some n => simp
      have hpre : cmpPreRelease v.toPubVer x.toPubVer = some 0 := by
        unfold cmpPreRelease
        rw [hk]
        have : ∃ k, preKey v.toPubVer = some k := by
          unfold preKey
          rcases hp : v.pre with _ | ⟨l, n⟩
          · simp only; split <;> exact ⟨_, rfl⟩
          · have := order_rank (canonSpelling_id (p.pre l n hp).1).1
            simp only [this]; exact ⟨_, rfl⟩
        obtain ⟨⟨L, N⟩, e⟩ := this
        simp [e, sub64_self]
      have hdv : cmpDevRelease v.toPubVer x.toPubVer = 1 := by
        unfold cmpDevRelease
        rw [hd]
      refine strict x 1 ?_ (by decide)
      unfold PubVer.cmp
      rw [if_neg (by rw [eself x rfl]; simp), if_neg (by rw [hrel]; simp), hpre]
      simp only
      rw [if_neg (by simp), if_neg (by rw [hpost]; simp), if_pos (by rw [hdv]; decide), hdv]

theorem clause_anatomy {str s : Str} {op : CmpOp} {m : Nat} {dk lk : Bool} (hs : splitOp (trimSpace str) = some (.ok (op, s, m, dk, lk)))
    {c : Clause} (h : parseClause str = some (.ok c)) : c.op = op ∧ parseVersion s = .ok c.ver := by
  unfold parseClause at h
  rw [hs] at h
  simp only at h
  split at h
  · cases h
  · rename_i w hw
    repeat' split at h
    all_goals first | (cases h; done) | skip
    injection h with h
    injection h with h
    subst h
    exact ⟨rfl, hw⟩

/-- C17, exactly, for one clause: the text it prints is accepted and means a specifier matching the same versions if and
only if its operator is none of `<`, `>`, `==….*`, `!=….*`, and no local segment is a negative number. -/
theorem C17_single {s : Str} {c : Clause} (h : parseSpecifier s = some (.ok [c])) :
    (∃ t sp, specString [c] = some t ∧ parseSpecifier t = some (.ok sp) ∧
      ∀ y x, parseVersion y = .ok x → specMatch sp x = specMatch [c] x) ↔
    c.op ∉ [CmpOp.lt, .gt, .prefixMatch, .prefixExclude] ∧ ∀ n, Seg.int n ∈ c.ver.loc → 0 ≤ n := by
  constructor
  · rintro ⟨t, sp, ht, hp, hall⟩
    obtain ⟨z, hz⟩ := parseClauses_ok h c (by simp)
    obtain ⟨⟨y, hy⟩, -, -, hloc, hdev⟩ := parseClause_ok hz
    have par := parsed_shape hy
    obtain ⟨op, v⟩ := c
    dsimp only at *
    obtain ⟨u, hu⟩ : ∃ u, v.string = some u := by
      cases hu : v.string with
      | none =>
        simp [specString, Clause.string, hu] at ht
      | some u => exact ⟨u, rfl⟩
    have ht' : t = op.text ++ u := by
      simp [specString, Clause.string, hu, join] at ht
      exact ht.symm
    subst ht'
    have ho := opText_chars op
    have hpr := printed_print par hu
    have hrt : rtrim u = u := by
      unfold rtrim
      rw [dropWhile_self, List.reverse_reverse]
      intro y hy
      exact (print_not (hpr y (by rw [← List.mem_reverse]; exact List.mem_of_mem_head? hy))).1
    have hstar : '*' ∉ u := fun hm => (print_not (hpr _ hm)).2.2.1 rfl
    have heq : '=' ∉ u := fun hm => (print_not (hpr _ hm)).2.2.2 rfl
    have htrim : trimSpace (op.text ++ u) = op.text ++ u := by
      rw [trimSpace_op ho.1 (fun x hx => (ho.2 x hx).1), hrt]
    obtain ⟨-, p2, p3, -⟩ := splitOp_plain hstar heq
    obtain ⟨c', hsp, hcl⟩ : ∃ c', sp = [c'] ∧ parseClause (op.text ++ u) = some (.ok c') := by
      unfold parseSpecifier at hp
      rw [fieldsFunc_none (by simp [ho.1]) (by
        intro x hx
        rw [decide_eq_false_iff_not]
        rcases List.mem_append.1 hx with hx | hx
        · exact (ho.2 x hx).2
        · exact (print_not (hpr x hx)).2.1)] at hp
      simp only [parseClauses, htrim] at hp
      rw [if_neg (by simp [ho.1])] at hp
      split at hp
      · cases hp
      · cases hp
      · rename_i c' hc'
        injection hp with hp
        injection hp with hp
        exact ⟨c', hp.symm, hc'⟩
    subst hsp
    have one : ∀ (c : Clause) x, specMatch [c] x = c.match x := by
      intro c x
      unfold specMatch
      cases c.match x with
      | none => rfl
      | some b => cases b <;> rfl
    have self : ∀ {x : Ver} {y : Str}, parseVersion y = .ok x → matchLT x x = some false ∧ matchGT x x = some false := by
      intro x y h
      unfold matchLT matchGT
      rw [C01_refl h]; decide
    have short : (op, op.text) ∈ [(CmpOp.lt, "<".toList), (.gt, ">".toList)] → False := by
      intro hm
      have hl : v.loc = [] := by
        simp only [List.mem_cons, Prod.mk.injEq, List.not_mem_nil, or_false] at hm
        rcases hm with ⟨rfl, -⟩ | ⟨rfl, -⟩ <;> exact hloc (by simp) (by simp)
      obtain ⟨y', r, rfl, hyd, hz0⟩ := printed_start par hu
      have hyd' := isDig_iff.1 hyd
      obtain ⟨e1, e2⟩ := clause_anatomy (by rw [htrim]; exact splitOp_short hm (by omega) (by rintro rfl; exact heq (by simp))) hcl
      have hok : parseVersion (y' :: r) = .ok v := by
        obtain ⟨t', ht', hp'⟩ := parsed_text par hl
        rw [hu] at ht'; cases ht'; exact hp'
      have hno : ∀ z : Char, (z = '\u017f' ∨ z = '\u212a') → z ∉ y' :: r := by
        intro z hz' hm'
        unfold Ver.string at hu
        split at hu
        · cases hu
        rename_i s' hs'
        rw [hl] at hu
        simp only [writeLoc, List.append_nil, Option.some.injEq] at hu
        rw [← hu] at hm'
        have := writeTo_print par hs' z hm'
        rcases hz' with rfl | rfl <;> revert this <;> decide +kernel
      obtain ⟨d, e, r', rfl, hd, hx⟩ := drop_digit hok (hno _ (Or.inl rfl)) (hno _ (Or.inr rfl)) hyd e2
      have hne : y' ≠ '0' := fun h0 => by
        have := hz0 h0 d r' rfl
        rw [hd] at this; cases this
      have hlt : numOf (d :: e) < numOf (y' :: d :: e) := by
        unfold numOf
        rw [digitsVal_cons y']
        have : 0 < digVal y' := by
          rcases Nat.eq_zero_or_pos (digVal y') with h0 | h0
          · exfalso
            apply hne
            have : y'.toNat = '0'.toNat := by
              unfold digVal at h0
              change y'.toNat - 48 = 0 at h0
              change y'.toNat = 48
              omega
            exact Char.toNat_inj.1 this
          · exact h0
        have : 0 < digVal y' * 10 ^ (d :: e).length := Nat.mul_pos this (Nat.pow_pos (by decide))
        omega
      have hless : FirstLess c'.ver v := by
        rcases hx with ⟨a, b⟩ | ⟨a, b, a', b'⟩
        · exact Or.inl (by rw [a, b]; exact hlt)
        · exact Or.inr ⟨by rw [a, b], _, _, b', a', hlt⟩
      obtain ⟨⟨d1, c1, q1⟩, d2, c2, q2⟩ := firstLess_cmp (parsed_shape e2) par hless
      obtain ⟨op', w⟩ := c'
      dsimp only at *
      subst e1
      simp only [List.mem_cons, Prod.mk.injEq, List.not_mem_nil, or_false] at hm
      rcases hm with ⟨rfl, -⟩ | ⟨rfl, -⟩
      · have := hall _ _ e2
        rw [one, one] at this
        simp only [Clause.match, (self e2).1] at this
        simp [matchLT, c1] at this
        omega
      · have := hall _ _ hok
        rw [one, one] at this
        simp only [Clause.match, (self hok).2] at this
        simp [matchGT, c2] at this
        omega
    constructor
    · intro hm
      simp only [List.mem_cons, List.not_mem_nil, or_false] at hm
      rcases hm with rfl | rfl | rfl | rfl
      · exact short (by decide)
      · exact short (by decide)
      · have hl := hloc (by simp) (by simp)
        have hd := hdev (Or.inl rfl)
        obtain ⟨e1, e2⟩ := clause_anatomy (by rw [htrim]; exact p2) hcl
        obtain ⟨t', ht', hp'⟩ := parsed_text par hl
        rw [hu] at ht'; cases ht'
        rw [hp'] at e2
        obtain ⟨op', w⟩ := c'
        dsimp only at e1 e2
        subst e1
        cases e2
        obtain ⟨x, px, lx, m1, m2⟩ := longer par hl hd
        obtain ⟨tx, -, hx⟩ := parsed_text px lx
        have := hall _ _ hx
        rw [one, one] at this
        simp [Clause.match, m1, m2] at this
      · have hl := hloc (by simp) (by simp)
        have hd := hdev (Or.inr rfl)
        obtain ⟨e1, e2⟩ := clause_anatomy (by rw [htrim]; exact p3) hcl
        obtain ⟨t', ht', hp'⟩ := parsed_text par hl
        rw [hu] at ht'; cases ht'
        rw [hp'] at e2
        obtain ⟨op', w⟩ := c'
        dsimp only at e1 e2
        subst e1
        cases e2
        obtain ⟨x, px, lx, m1, m2⟩ := longer par hl hd
        obtain ⟨tx, -, hx⟩ := parsed_text px lx
        have := hall _ _ hx
        rw [one, one, (C10_complements v x).1, (C10_complements v x).2.1] at this
        simp [Clause.match, m1, m2] at this
    · intro n hn
      rcases Int.lt_or_le n 0 with hneg | hpos
      · exfalso
        have hbad := neg_unreadable hu hneg hn
        by_cases h1 : op = .strictMatch
        · subst h1
          rw [(clause_anatomy (by rw [htrim]; exact p2) hcl).2] at hbad; cases hbad
        · by_cases h2 : op = .strictExclude
          · subst h2
            rw [(clause_anatomy (by rw [htrim]; exact p3) hcl).2] at hbad; cases hbad
          · rw [hloc h1 h2] at hn; cases hn
      · exact hpos
  · intro hall
    obtain ⟨t, h1, h2⟩ := (C17_exact h).2 (by simpa using hall)
    exact ⟨t, [c], h1, h2, fun _ _ _ => rfl⟩

-- a clause that keeps its meaning, and one that does not
example : (∃ c, parseSpecifier "~= 1.4.2".toList = some (.ok [c]) ∧ c.op ∉ [CmpOp.lt, .gt, .prefixMatch, .prefixExclude] ∧
      c.ver.loc = []) ∧
    (∃ c, parseSpecifier "!=1.4.*".toList = some (.ok [c]) ∧ ¬ ∃ t sp, specString [c] = some t ∧
      parseSpecifier t = some (.ok sp) ∧ ∀ y x, parseVersion y = .ok x → specMatch sp x = specMatch [c] x) := by
  constructor
  · exact ⟨⟨.compatible, { epoch := 0, release := [1, 4, 2], pre := none, post := none, dev := none, loc := [] }⟩,
      by decide +kernel, by decide, rfl⟩
  · have h : parseSpecifier "!=1.4.*".toList = some (.ok
        [⟨.prefixExclude, { epoch := 0, release := [1, 4], pre := none, post := none, dev := none, loc := [] }⟩]) := by
      decide +kernel
    exact ⟨_, h, fun hx => absurd ((C17_single h).1 hx).1 (by simp)⟩

end Pep440
