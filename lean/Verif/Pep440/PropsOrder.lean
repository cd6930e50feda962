import Verif.Pep440.Order
import Verif.Pep440.CaseSpace
/-! Properties C01–C08: version order, parsing and printing. -/
namespace Pep440
open Go Spec

/-- `a.Cmp(b)` as a sign; `none` would be a panic -/
def cmpSign (a b : Ver) : Option Ordering := (a.cmp b).map ordOf

theorem Parsed.wf {v : Ver} (h : Parsed v) (ho : Ordinary v) : WF v where
  pub :=
    { epoch := h.epoch
      release := h.releaseNN
      pre := fun l n hp => ⟨(canonSpelling_id (h.pre l n hp).1).1, (h.pre l n hp).2⟩
      post := fun n hp => ⟨h.post n hp, by
        have h1 := (h.post n hp).2
        have h2 := ho.2
        rw [hp] at h2
        have : n ≠ 2 ^ 63 - 1 := fun e => h2 (by rw [e])
        omega⟩
      dev := h.dev }
  loc := fun n hn => ⟨ho.1 n hn, (h.locInt n hn).2⟩

theorem cmpSign_spec {a b : Ver} (ha : WF a) (hb : WF b) : cmpSign a b = some (cmpVer a b) := by
  obtain ⟨d, hd, hs⟩ := cmpVer_spec ha hb
  unfold cmpSign; rw [hd, Option.map_some, hs]

/-! ### C01 -/

/-- C01 (partial): on versions returned by `ParseVersion`, `Cmp` never panics and is a total preorder — reflexive,
antisymmetric in sign, transitive — provided no component sits at the edge of the machine range (`Ordinary`).  The
full claim without `Ordinary` is false: see the three `C01_violated_…` theorems. -/
theorem C01_total_preorder_partial {s t u : Str} {a b c : Ver} (ha : parseVersion s = .ok a)
    (hb : parseVersion t = .ok b) (hc : parseVersion u = .ok c) (oa : Ordinary a) (ob : Ordinary b)
    (oc : Ordinary c) :
    a.cmp a = some 0 ∧
    (∃ d e, a.cmp b = some d ∧ b.cmp a = some e ∧ (d < 0 ↔ 0 < e) ∧ (d = 0 ↔ e = 0)) ∧
    (∀ d e, a.cmp b = some d → b.cmp c = some e → d ≤ 0 → e ≤ 0 → ∃ f, a.cmp c = some f ∧ f ≤ 0) := by
  have wa := (parsed_shape ha).wf oa
  have wb := (parsed_shape hb).wf ob
  have wc := (parsed_shape hc).wf oc
  obtain ⟨x, hx, sx⟩ := cmpVer_spec wa wa
  obtain ⟨d, hd, sd⟩ := cmpVer_spec wa wb
  obtain ⟨e, he, se⟩ := cmpVer_spec wb wa
  obtain ⟨f, hf, sf⟩ := cmpVer_spec wb wc
  obtain ⟨g, hg, sg⟩ := cmpVer_spec wa wc
  refine ⟨?_, ⟨d, e, hd, he, ?_, ?_⟩, ?_⟩
  · have : cmpVer a a = .eq := Std.ReflCmp.compare_self
    rw [this, ordOf_eq_eq] at sx; rw [hx, sx]
  · have := Std.OrientedCmp.eq_swap (cmp := cmpVer) (a := a) (b := b)
    rw [← ordOf_eq_lt, ← ordOf_eq_gt, sd, se, this]
    cases cmpVer b a <;> simp
  · have := Std.OrientedCmp.eq_swap (cmp := cmpVer) (a := a) (b := b)
    rw [← ordOf_eq_eq, ← ordOf_eq_eq, sd, se, this]
    cases cmpVer b a <;> simp
  · intro d' f' hd' hf' h1 h2
    rw [hd] at hd'; rw [hf] at hf'
    injection hd' with hd'; injection hf' with hf'; subst hd' hf'
    refine ⟨g, hg, ?_⟩
    have le : ∀ z : Int, z ≤ 0 ↔ (ordOf z).isLE := by
      intro z
      rcases Int.lt_trichotomy z 0 with h | h | h
      · rw [ordOf_eq_lt.2 h]; simp; omega
      · rw [ordOf_eq_eq.2 h]; simp; omega
      · rw [ordOf_eq_gt.2 h]; simp; omega
    rw [le, sg]
    rw [le, sd] at h1
    rw [le, sf] at h2
    exact Std.TransCmp.isLE_trans h1 h2

/-- the hypotheses are met by ordinary versions -/
example : ∃ a, parseVersion "1!2.0rc1.post3.dev4+abc.5".toList = .ok a ∧ Ordinary a :=
  ⟨{ epoch := 1, release := [2, 0], pre := some ("rc".toList, 1), post := some 3, dev := some 4,
     loc := [.str "abc".toList, .int 5] }, by decide +kernel, by simp [Ordinary]⟩

theorem sub64_self (x : Int) : sub64 x x = 0 := by simp [sub64, wrap64]
theorem sub32_self (x : Int) : sub32 x x = 0 := by simp [sub32, wrap32]

theorem cmpReleaseLoop_self (a : PubVer) (k i : Nat) : cmpReleaseLoop a a i k = 0 := by
  induction k generalizing i with
  | zero => rfl
  | succ k ih => rw [cmpReleaseLoop]; simp [sub64_self, ih]

theorem strLt_irrefl (s : Str) : strLt s s = false := by
  simp [strLt, List.lt_irrefl]

theorem cmpLocalLoop_self (a : List Seg) (k i : Nat) : cmpLocalLoop a a i k = 0 := by
  induction k generalizing i with
  | zero => rfl
  | succ k ih =>
    rw [cmpLocalLoop]
    have : cmpLocalSegment a[i]? a[i]? = 0 := by
      rcases a[i]? with _ | (n | s)
      · rfl
      · exact sub32_self n
      · simp [cmpLocalSegment, strLt_irrefl]
    simp [this, ih]

/-- C01, reflexivity, without restriction: every parsed version compares equal to itself. -/
theorem C01_refl {s : Str} {a : Ver} (ha : parseVersion s = .ok a) : a.cmp a = some 0 := by
  have p := parsed_shape ha
  have hpre : cmpPreRelease a.toPubVer a.toPubVer = some 0 := by
    unfold cmpPreRelease
    have : ∃ k, preKey a.toPubVer = some k := by
      unfold preKey
      rcases hp : a.pre with _ | ⟨l, n⟩
      · simp only; split <;> exact ⟨_, rfl⟩
      · have := order_rank (canonSpelling_id (p.pre l n hp).1).1
        simp only [this]; exact ⟨_, rfl⟩
    obtain ⟨⟨L, N⟩, e⟩ := this
    simp [e, sub64_self]
  have hdev : cmpDevRelease a.toPubVer a.toPubVer = 0 := by
    unfold cmpDevRelease; rcases a.dev with _ | n <;> simp [sub64_self]
  simp [Ver.cmp, PubVer.cmp, cmpEpoch, cmpRelease, cmpPostRelease, sub64_self, cmpReleaseLoop_self, hpre, hdev,
    cmpLocal, cmpLocalLoop_self]

example : ∃ a, parseVersion "1.0+4294967295".toList = .ok a ∧ a.cmp a = some 0 :=
  ⟨{ epoch := 0, release := [1, 0], pre := none, post := none, dev := none, loc := [.int (-1)] },
    by decide +kernel, by decide +kernel⟩

/-- C01 is violated: `1+2147483648` (whose local segment wraps to the smallest `int32`) and `1+0` each compare below
the other. -/
theorem C01_violated_local : ∃ a b d e, parseVersion "1+2147483648".toList = .ok a ∧
    parseVersion "1+0".toList = .ok b ∧ a.cmp b = some d ∧ b.cmp a = some e ∧ d < 0 ∧ e < 0 :=
  ⟨{ epoch := 0, release := [1], pre := none, post := none, dev := none, loc := [.int (-2147483648)] },
   { epoch := 0, release := [1], pre := none, post := none, dev := none, loc := [.int 0] },
   -2147483648, -2147483648, by decide +kernel⟩

/-- C01 is violated: `1.post9223372036854775807` and `1` each compare below the other (`aPost - bPost` overflows). -/
theorem C01_violated_post : ∃ a b d e, parseVersion "1.post9223372036854775807".toList = .ok a ∧
    parseVersion "1".toList = .ok b ∧ a.cmp b = some d ∧ b.cmp a = some e ∧ d < 0 ∧ e < 0 :=
  ⟨{ epoch := 0, release := [1], pre := none, post := some 9223372036854775807, dev := none, loc := [] },
   { epoch := 0, release := [1], pre := none, post := none, dev := none, loc := [] },
   -9223372036854775808, -9223372036854775808, by decide +kernel⟩

/-- C01 is violated: transitivity fails, `1+4294967294 ≤ 1+1 ≤ 1+2147483647` but not
`1+4294967294 ≤ 1+2147483647`. -/
theorem C01_violated_trans : ∃ a b c d e f, parseVersion "1+4294967294".toList = .ok a ∧
    parseVersion "1+1".toList = .ok b ∧ parseVersion "1+2147483647".toList = .ok c ∧
    a.cmp b = some d ∧ b.cmp c = some e ∧ a.cmp c = some f ∧ d ≤ 0 ∧ e ≤ 0 ∧ ¬ f ≤ 0 :=
  ⟨{ epoch := 0, release := [1], pre := none, post := none, dev := none, loc := [.int (-2)] },
   { epoch := 0, release := [1], pre := none, post := none, dev := none, loc := [.int 1] },
   { epoch := 0, release := [1], pre := none, post := none, dev := none, loc := [.int 2147483647] },
   -3, -2147483646, 2147483647, by decide +kernel⟩

/-! ### C02 -/

/-- C02: `Cmp` never panics on well-formed versions and its sign is the PEP 440 order (`Spec.cmpVer`). -/
theorem C02_pep440_order {a b : Ver} (ha : WF a) (hb : WF b) :
    ∃ d, a.cmp b = some d ∧
      (d < 0 ↔ cmpVer a b = .lt) ∧ (d = 0 ↔ cmpVer a b = .eq) ∧ (0 < d ↔ cmpVer a b = .gt) := by
  obtain ⟨d, hd, hs⟩ := cmpVer_spec ha hb
  exact ⟨d, hd, by rw [← hs, ordOf_eq_lt], by rw [← hs, ordOf_eq_eq], by rw [← hs, ordOf_eq_gt]⟩

/-- every version `ParseVersion` returns is covered by C02 unless a component sits at the edge of the machine range -/
theorem C02_parsed_covered {s : Str} {v : Ver} (h : parseVersion s = .ok v) (ho : Ordinary v) : WF v :=
  (parsed_shape h).wf ho

/-- non-vacuity, and a check of the specification: the ordering example of PEP 440 -/
example : (["1.dev0", "1.0.dev456", "1.0a1", "1.0a2.dev456", "1.0a12.dev456", "1.0a12", "1.0b1.dev456", "1.0b2",
    "1.0b2.post345.dev456", "1.0b2.post345", "1.0rc1.dev456", "1.0rc1", "1.0", "1.0+abc.5", "1.0+abc.7", "1.0+5",
    "1.0.post456.dev34", "1.0.post456", "1.0.15", "1.1.dev1"].filterMap
      (fun s => (parseVersion s.toList).toOption)).Pairwise (fun a b => cmpVer a b = .lt ∧ cmpSign a b = some .lt) := by
  decide +kernel

/-! ### C03 -/

/-- the two spellings denote the same pre-release phase -/
def SameLetter (l l' : Str) : Prop := l ∈ spellings ∧ l' ∈ spellings ∧ preRank l = preRank l'

theorem stripZeros_replicate (l : List Int) (n : Nat) : stripZeros (l ++ List.replicate n 0) = stripZeros l := by
  unfold stripZeros
  congr 1
  rw [List.reverse_append, List.reverse_replicate]
  induction n with
  | zero => rfl
  | succ n ih => rw [List.replicate_succ, List.cons_append, List.dropWhile_cons]; simp

theorem cmpVer_congr {a a' : Ver} (h1 : a'.epoch = a.epoch) (h2 : stripZeros a'.release = stripZeros a.release)
    (h3 : Spec.preKey a'.toPubVer = Spec.preKey a.toPubVer) (h4 : a'.post = a.post) (h5 : a'.dev = a.dev)
    (h6 : a'.loc = a.loc) (b : Ver) : cmpVer a' b = cmpVer a b := by
  unfold cmpVer cmpPub postKey devKey
  rw [h1, h2, h3, h4, h5, h6]

/-- C03: appending zeros to the release and re-spelling the pre-release letter changes nothing in the order. -/
theorem C03_padding_and_spelling {v : Ver} (hv : WF v) (n : Nat) (pre : Option (Str × Int))
    (hpre : pre = v.pre ∨ ∃ l l' k, v.pre = some (l, k) ∧ pre = some (l', k) ∧ SameLetter l l') :
    let v' : Ver := { v with release := v.release ++ List.replicate n 0, pre := pre }
    v'.cmp v = some 0 ∧ ∀ w, WF w → cmpSign v' w = cmpSign v w ∧ cmpSign w v' = cmpSign w v := by
  intro v'
  have hv' : WF v' :=
    { pub :=
        { epoch := hv.pub.epoch
          release := by
            intro m hm
            rcases List.mem_append.1 hm with hm | hm
            · exact hv.pub.release m hm
            · rw [List.mem_replicate] at hm; rw [hm.2]; unfold Nat63; omega
          pre := by
            intro l k hk
            rcases hpre with rfl | ⟨l0, l1, k0, e0, rfl, hs⟩
            · exact hv.pub.pre l k hk
            · have hk : some (l1, k0) = some (l, k) := hk
              injection hk with hk
              injection hk with e1 e2
              subst e1 e2
              exact ⟨hs.2.1, (hv.pub.pre l0 k0 e0).2⟩
          post := hv.pub.post
          dev := hv.pub.dev }
      loc := hv.loc }
  have hk : Spec.preKey v'.toPubVer = Spec.preKey v.toPubVer := by
    unfold Spec.preKey
    rcases hpre with rfl | ⟨l0, l1, k0, e0, rfl, hs⟩
    · rfl
    · simp only [v', e0, hs.2.2]
  have key := cmpVer_congr (a := v) (a' := v') rfl (stripZeros_replicate _ _) hk rfl rfl rfl
  have key2 : ∀ w, cmpVer w v' = cmpVer w v := fun w => by
    rw [Std.OrientedCmp.eq_swap (cmp := cmpVer), key, ← Std.OrientedCmp.eq_swap (cmp := cmpVer)]
  refine ⟨?_, fun w hw => ⟨?_, ?_⟩⟩
  · obtain ⟨d, hd, hs⟩ := cmpVer_spec hv' hv
    rw [key, (Std.ReflCmp.compare_self : cmpVer v v = .eq), ordOf_eq_eq] at hs
    rw [hd, hs]
  · rw [cmpSign_spec hv' hw, cmpSign_spec hv hw, key]
  · rw [cmpSign_spec hw hv', cmpSign_spec hw hv, key2]

/-- the spellings named in the property -/
example : SameLetter "a".toList "alpha".toList ∧ SameLetter "b".toList "beta".toList ∧
    SameLetter "rc".toList "c".toList ∧ SameLetter "rc".toList "pre".toList ∧
    SameLetter "preview".toList "rc".toList := by
  unfold SameLetter; decide +kernel

example : WF { epoch := 0, release := [1, 0], pre := some ("alpha".toList, 1), post := none, dev := none, loc := [] } :=
  C02_wf_example
where
  C02_wf_example : WF { epoch := 0, release := [1, 0], pre := some ("alpha".toList, 1), post := none, dev := none, loc := [] } :=
    { pub := { epoch := by simp [Nat63], release := by simp [Nat63], pre := by simp [Nat63]; decide
               post := by simp, dev := by simp }
      loc := by simp [WFLoc] }

/-! ### C04, C05, C07 -/

/-- C04 (partial): parsing the printed form of a parsed version gives the version back, provided no numeric local
segment wrapped to a negative number (i.e. was 2^31 or more in the text).  Without the proviso it is false, see
`C04_violated`. -/
theorem C04_parse_print_parse_partial {s : Str} {v : Ver} (h : parseVersion s = .ok v)
    (hn : ∀ n, Seg.int n ∈ v.loc → 0 ≤ n) :
    ∃ t, v.string = some t ∧ parseVersion t = .ok v := by
  have p := parsed_shape h
  obtain ⟨t, ht, hp⟩ := parse_printed (p.readable hn)
  exact ⟨t, ht, by rw [hp, p.canonPre_id]⟩

example : ∃ v, parseVersion " v01.02-ALPHA_3 ".toList = .ok v ∧ (∀ n, Seg.int n ∈ v.loc → 0 ≤ n) ∧
    v.string = some "1.2a3".toList :=
  ⟨{ epoch := 0, release := [1, 2], pre := some ("a".toList, 3), post := none, dev := none, loc := [] },
    by decide +kernel, by simp, by decide +kernel⟩

/-- C04 is violated for local segments of 2^31 and above: the printed form is not even accepted. -/
theorem C04_violated : ∃ v t, parseVersion "1+2147483648".toList = .ok v ∧ v.string = some t ∧
    parseVersion t = .error () :=
  ⟨{ epoch := 0, release := [1], pre := none, post := none, dev := none, loc := [.int (-2147483648)] },
   "1+-2147483648".toList, by decide +kernel⟩

theorem lowAlnum_of_mem {c : Char} (h : c ∈ "abcdefghijklmnopqrstuvwxyz0123456789".toList) : lowAlnum c = true := by
  revert c; decide

theorem not_dig_of {c : Char} (h : c ∉ "0123456789".toList) : isDig c = false := by
  cases hd : isDig c with
  | false => rfl
  | true =>
    exfalso; apply h
    rw [isDig_iff] at hd
    have : c = Char.ofNat (48 + (c.toNat - 48)) := by
      rw [show 48 + (c.toNat - 48) = c.toNat by omega, Char.ofNat_toNat]
    rw [this]
    have : ∀ n : Fin 10, Char.ofNat (48 + n.val) ∈ "0123456789".toList := by decide
    exact this ⟨c.toNat - 48, by omega⟩

theorem atoiU_nondigit {s : Str} {c : Char} (hc : c ∈ s) (hd : isDig c = false) : atoiU s = none := by
  unfold atoiU
  rw [if_neg]
  rintro ⟨_, h⟩
  rw [List.all_eq_true] at h
  rw [h c hc] at hd; cases hd

theorem atoi_nondigit {s : Str} (h : ∀ c ∈ s, c ≠ '-' ∧ c ≠ '+') {c : Char} (hc : c ∈ s) (hd : isDig c = false) :
    atoi s = none := by
  unfold atoi
  split
  · exact absurd rfl (h '-' (by simp)).1
  · exact absurd rfl (h '+' (by simp)).2
  · rw [atoiU_nondigit hc hd]

theorem lowAlnum_ne_sign {c : Char} (h : lowAlnum c = true) : c ≠ '-' ∧ c ≠ '+' := by
  constructor <;> (rintro rfl; revert h; decide)

theorem canonicalLoc_seg {l : List Seg} (h : CanonicalLoc l) : ∀ g ∈ l, CanonSeg g := by
  intro g hg
  cases g with
  | int n => exact h.1 n hg
  | str s =>
    obtain ⟨h1, h2, c, hc, hd⟩ := h.2 s hg
    have h3 : ∀ c ∈ s, lowAlnum c = true := fun c hc => lowAlnum_of_mem (h2 c hc)
    exact ⟨h1, h3, atoi_nondigit (fun c hc => lowAlnum_ne_sign (h3 c hc)) hc (not_dig_of hd)⟩

/-- C05: every canonical version value is printed and read back unchanged. -/
theorem C05_canonical_accepted {v : Ver} (h : Canonical v) : ∃ t, v.string = some t ∧ parseVersion t = .ok v := by
  have hr : Readable v :=
    { epoch := h.epoch
      release := h.release
      releaseNN := h.releaseRange
      pre := fun l n hp => ⟨(canonSpelling_id (h.pre l n hp).1).1, (h.pre l n hp).2⟩
      post := h.post
      dev := h.dev
      loc := canonicalLoc_seg h.loc }
  obtain ⟨t, ht, hp⟩ := parse_printed hr
  refine ⟨t, ht, ?_⟩
  rw [hp]
  congr 1
  unfold canonPre
  have : v.pre.map (fun p => (canonSpelling p.1, p.2)) = v.pre := by
    rcases hp : v.pre with _ | ⟨l, n⟩
    · rfl
    · simp [(canonSpelling_id (h.pre l n hp).1).2]
  rw [this]

example : Canonical
    { epoch := 1, release := [2, 0, 3], pre := some ("rc".toList, 1), post := some 3, dev := some 0,
      loc := [.str "ubuntu1".toList, .int 5] } :=
  { epoch := by simp
    release := by simp
    releaseRange := by simp
    pre := by simp
    post := by simp
    dev := by simp
    loc := by
      refine ⟨by simp, ?_⟩
      intro s hs
      simp only [List.mem_cons, Seg.str.injEq, reduceCtorEq, List.not_mem_nil, or_false] at hs
      subst hs; decide }

/-! ### C06 -/

/-- C06 (partial): if `v.Normalize()` returns `n` (with no wrapped local number) then `n.Normalize()` returns `n` and
`n` uses canonical spellings only; for well-formed `v` with canonical local label, `Normalize` succeeds and the
result compares equal to `v`.  The unrestricted idempotence is false: see `C06_violated`. -/
theorem C06_normalize_partial {v : Ver} :
    (∀ n, v.normalize = some (.ok n) → (∀ k, Seg.int k ∈ n.loc → 0 ≤ k) →
      n.normalize = some (.ok n) ∧ (∀ l k, n.pre = some (l, k) → l ∈ ["a".toList, "b".toList, "rc".toList])) ∧
    (WF v → v.release ≠ [] → CanonicalLoc v.loc →
      ∃ n, v.normalize = some (.ok n) ∧ v.cmp n = some 0 ∧ n.toPubVer.normalize = some (.ok n.toPubVer)) := by
  constructor
  · intro n hn hi
    unfold Ver.normalize at hn
    split at hn
    · cases hn
    · injection hn with hn
      have p := parsed_shape hn
      obtain ⟨t, ht, hp⟩ := C04_parse_print_parse_partial hn hi
      refine ⟨?_, fun l k hk => (p.pre l k hk).1⟩
      unfold Ver.normalize; simp only [ht, hp]
  · intro hv hne hl
    have hr : Readable v :=
      { epoch := hv.pub.epoch, release := hne, releaseNN := hv.pub.release, pre := hv.pub.pre
        post := fun n hn => (hv.pub.post n hn).1, dev := hv.pub.dev, loc := canonicalLoc_seg hl }
    obtain ⟨t, ht, hp⟩ := parse_printed hr
    have hrank : ∀ l : Str, l ∈ spellings → preRank (canonSpelling l) = preRank l ∧ canonSpelling l ∈ spellings := by
      intro l hl
      rcases spell_cases hl with rfl | rfl | rfl | rfl | rfl | rfl | rfl | rfl <;> decide
    refine ⟨canonPre v, ?_, ?_, ?_⟩
    · unfold Ver.normalize; simp only [ht, hp]
    · have := (C03_padding_and_spelling hv 0 (v.pre.map (fun p => (canonSpelling p.1, p.2))) (by
        rcases hp : v.pre with _ | ⟨l, k⟩
        · exact Or.inl rfl
        · right
          have h1 := (hv.pub.pre l k hp).1
          exact ⟨l, canonSpelling l, k, rfl, rfl, h1, (hrank l h1).2, (hrank l h1).1.symm⟩))
      simp only [List.replicate_zero, List.append_nil] at this
      obtain ⟨h1, h2⟩ := this
      have h3 := (h2 v hv).2
      unfold cmpSign at h3
      obtain ⟨d, hd, hs⟩ := cmpVer_spec hv hv
      rw [(Std.ReflCmp.compare_self : cmpVer v v = .eq), ordOf_eq_eq] at hs
      subst hs
      rw [hd] at h3
      change (v.cmp (canonPre v)).map ordOf = _ at h3
      rcases hc : v.cmp (canonPre v) with _ | e
      · rw [hc] at h3; cases h3
      · rw [hc] at h3
        have h3 : ordOf e = ordOf 0 := by simpa using h3
        rw [show ordOf 0 = .eq from rfl, ordOf_eq_eq] at h3
        rw [h3]
    · let w : Ver := { canonPre v with loc := [] }
      have hw : Readable w :=
        { epoch := hr.epoch, release := hr.release, releaseNN := hr.releaseNN
          pre := by
            intro l k hk
            have hk : v.pre.map (fun p => (canonSpelling p.1, p.2)) = some (l, k) := hk
            rw [Option.map_eq_some_iff] at hk
            obtain ⟨⟨l0, k0⟩, h0, e⟩ := hk
            injection e with e1 e2; subst e1 e2
            exact ⟨(hrank l0 (hr.pre l0 _ h0).1).2, (hr.pre l0 _ h0).2⟩
          post := hr.post, dev := hr.dev, loc := by simp [w] }
      obtain ⟨u, hu, hq⟩ := parse_printed hw
      have hcc : ∀ l : Str, l ∈ spellings → canonSpelling (canonSpelling l) = canonSpelling l := by
        intro l hl
        rcases spell_cases hl with rfl | rfl | rfl | rfl | rfl | rfl | rfl | rfl <;> decide
      have e : canonPre w = w := by
        have : w.pre.map (fun p => (canonSpelling p.1, p.2)) = w.pre := by
          show (v.pre.map _).map _ = v.pre.map _
          rcases hp : v.pre with _ | ⟨l, k⟩
          · rfl
          · simp [hcc l (hv.pub.pre l k hp).1]
        unfold canonPre; rw [this]
      have hstr : (canonPre v).toPubVer.string = some u := by
        have : w.string = (match w.toPubVer.writeTo with | none => none | some s => some (s ++ writeLoc '+' [])) := rfl
        rw [this] at hu
        show (canonPre v).toPubVer.writeTo = some u
        have e2 : w.toPubVer = (canonPre v).toPubVer := rfl
        rw [e2] at hu
        rcases hz : (canonPre v).toPubVer.writeTo with _ | z
        · rw [hz] at hu; cases hu
        · rw [hz] at hu; simpa [writeLoc] using hu
      unfold PubVer.normalize
      rw [hstr]; simp only
      rw [hq, e]

example : ∃ v n : Ver, v.normalize = some (.ok n) ∧ v ≠ n ∧ (∀ k, Seg.int k ∈ n.loc → 0 ≤ k) :=
  ⟨{ epoch := 0, release := [1], pre := some ("preview".toList, 1), post := none, dev := none, loc := [] },
   { epoch := 0, release := [1], pre := some ("rc".toList, 1), post := none, dev := none, loc := [] },
   by decide +kernel, by decide +kernel, by simp⟩

/-- C06 is violated: normalising a version with local label `2147483648` gives a value whose own normalisation fails. -/
theorem C06_violated : ∃ v n : Ver, v.normalize = some (.ok n) ∧ n.normalize = some (.error ()) :=
  ⟨{ epoch := 0, release := [1], pre := none, post := none, dev := none, loc := [.str "2147483648".toList] },
   { epoch := 0, release := [1], pre := none, post := none, dev := none, loc := [.int (-2147483648)] },
   by decide +kernel, by decide +kernel⟩

/-- C06 is violated: `1+A` (as a value; parsing gives lower case) is well-formed, and its normal form `1+a` compares as another version. -/
theorem C06_violated_order : ∃ v n : Ver, WF v ∧ v.normalize = some (.ok n) ∧ v.cmp n = some (-1) := by
  refine ⟨{ epoch := 0, release := [1], pre := none, post := none, dev := none, loc := [.str "A".toList] },
    { epoch := 0, release := [1], pre := none, post := none, dev := none, loc := [.str "a".toList] },
    ⟨⟨⟨by decide, by decide⟩, ?_, by simp, by simp, by simp⟩, ?_⟩, by decide +kernel, by decide +kernel⟩
  · intro n hn
    rw [show n = 1 by simpa using hn]
    exact ⟨by decide, by decide⟩
  · intro n hn
    simp at hn

/-! ### C07 -/

theorem dig_not_plus {w : Str} (h : ∀ c ∈ w, isDig c = true) : '+' ∉ w :=
  fun hm => by have := h '+' hm; revert this; decide

theorem writeRel_no_plus {ns : List Int} (h : ∀ n ∈ ns, 0 ≤ n) : '+' ∉ writeRel ns := by
  induction ns with
  | nil => simp [writeRel]
  | cons n ns ih =>
    rw [writeRel]
    simp only [List.mem_cons, List.mem_append, not_or]
    exact ⟨by decide, dig_not_plus (digits_itoa (h n (by simp))).2, ih (fun m hm => h m (by simp [hm]))⟩

theorem writeTo_no_plus {v : Ver} (p : Parsed v) {s : Str} (h : v.toPubVer.writeTo = some s) : '+' ∉ s := by
  unfold PubVer.writeTo at h
  split at h
  · cases h
  · rename_i n ns hr
    have hnn := p.releaseNN
    rw [hr] at hnn
    injection h with h
    subst h
    simp only [List.mem_append, not_or]
    refine ⟨⟨⟨⟨?_, dig_not_plus (digits_itoa (hnn n (by simp)).1).2,
      writeRel_no_plus (fun m hm => (hnn m (by simp [hm])).1)⟩, ?_⟩, ?_⟩, ?_⟩
    · split
      · simp only [List.mem_append, not_or]
        exact ⟨dig_not_plus (digits_itoa (p.epoch).1).2, by decide⟩
      · simp
    · split
      · rename_i l k hp
        have := p.pre l k hp
        simp only [List.mem_append, not_or]
        refine ⟨?_, dig_not_plus (digits_itoa this.2.1).2⟩
        have h1 := this.1
        simp only [List.mem_cons, List.not_mem_nil, or_false] at h1
        rcases h1 with rfl | rfl | rfl <;> decide
      · simp
    · split
      · rename_i k hp
        simp only [List.mem_append, not_or]
        exact ⟨by decide, dig_not_plus (digits_itoa (p.post k hp).1).2⟩
      · simp
    · split
      · rename_i k hp
        simp only [List.mem_append, not_or]
        exact ⟨by decide, dig_not_plus (digits_itoa (p.dev k hp).1).2⟩
      · simp

theorem append_inj_sep {α : Type} {x : α} {a b : List α} {c d : List α} (ha : x ∉ a) (hb : x ∉ b)
    (hc : c = [] ∨ ∃ t, c = x :: t) (hd : d = [] ∨ ∃ t, d = x :: t) (h : a ++ c = b ++ d) : a = b ∧ c = d := by
  induction a generalizing b with
  | nil =>
    cases b with
    | nil => exact ⟨rfl, by simpa using h⟩
    | cons y b =>
      exfalso
      simp only [List.nil_append, List.cons_append] at h
      rcases hc with rfl | ⟨t, rfl⟩
      · cases h
      · injection h with h1 h2; subst h1; simp at hb
  | cons y a ih =>
    cases b with
    | nil =>
      exfalso
      simp only [List.nil_append, List.cons_append] at h
      rcases hd with rfl | ⟨t, rfl⟩
      · cases h
      · injection h with h1 h2; subst h1; simp at ha
    | cons z b =>
      simp only [List.cons_append] at h
      injection h with h1 h2
      subst h1
      have := ih (fun hm => ha (by simp [hm])) (fun hm => hb (by simp [hm])) h2
      exact ⟨by rw [this.1], this.2⟩

theorem itoa_no_dot (n : Int) : '.' ∉ itoa n := by
  unfold itoa
  have h : ∀ k, '.' ∉ itoaNat k := fun k hm => by
    have := (List.all_eq_true.1 (itoaNat_all k)) '.' hm; revert this; decide
  split
  · simp only [List.mem_cons, not_or]; exact ⟨by decide, h _⟩
  · exact h _

theorem seg_no_dot {v : Ver} (p : Parsed v) {g : Seg} (hg : g ∈ v.loc) : '.' ∉ g.string := by
  cases g with
  | int n => exact itoa_no_dot n
  | str s =>
    intro hm
    have := (p.locStr s hg).2.1 '.' hm
    revert this; decide

theorem itoaNat_inj {a b : Nat} (h : itoaNat a = itoaNat b) : a = b := by
  rw [← digitsVal_itoaNat a, h, digitsVal_itoaNat]

theorem itoa_inj {a b : Int} (h : itoa a = itoa b) : a = b := by
  have neg : ∀ k, ∀ t, itoaNat k ≠ '-' :: t := fun k t e => by
    have := (List.all_eq_true.1 (itoaNat_all k)) '-' (by rw [e]; simp); revert this; decide
  unfold itoa at h
  split at h <;> split at h
  · injection h with _ h; have := itoaNat_inj h; omega
  · exact absurd h.symm (neg _ _)
  · exact absurd h (neg _ _)
  · have := itoaNat_inj h; omega

theorem seg_inj {v w : Ver} (p : Parsed v) (q : Parsed w) {g g' : Seg} (hg : g ∈ v.loc) (hg' : g' ∈ w.loc)
    (h : g.string = g'.string) : g = g' := by
  have clash : ∀ n s, -2 ^ 31 ≤ n → n < 2 ^ 31 → (∀ c ∈ s, lowAlnum c = true) → atoi s = none → itoa n ≠ s := by
    intro n s h1 h2 h3 h4 e
    subst e
    by_cases hn : 0 ≤ n
    · rw [atoi_itoa hn (by omega)] at h4; cases h4
    · have : itoa n = '-' :: itoaNat n.natAbs := by unfold itoa; rw [if_pos (by omega)]
      rw [this] at h3
      have := h3 '-' (by simp); revert this; decide
  cases g with
  | int n => cases g' with
    | int m => rw [itoa_inj h]
    | str s =>
      have h1 := p.locInt n hg; have h2 := q.locStr s hg'
      exact absurd h (clash n s h1.1 h1.2 h2.2.1 h2.2.2)
  | str s => cases g' with
    | int m =>
      have h1 := q.locInt m hg'; have h2 := p.locStr s hg
      exact absurd h.symm (clash m s h1.1 h1.2 h2.2.1 h2.2.2)
    | str t => rw [show s = t from h]

theorem writeLoc_inj {v w : Ver} (p : Parsed v) (q : Parsed w) :
    ∀ (sep : Char) (a b : List Seg), (∀ g ∈ a, g ∈ v.loc) → (∀ g ∈ b, g ∈ w.loc) →
      writeLoc sep a = writeLoc sep b → a = b := by
  intro sep a
  induction a generalizing sep with
  | nil => intro b _ _ h; cases b with
    | nil => rfl
    | cons g b => cases h
  | cons g a ih =>
    intro b ha hb h
    cases b with
    | nil => cases h
    | cons g' b =>
      rw [writeLoc, writeLoc] at h
      injection h with _ h
      have shape : ∀ l : List Seg, writeLoc '.' l = [] ∨ ∃ t, writeLoc '.' l = '.' :: t := by
        intro l; cases l with
        | nil => exact Or.inl rfl
        | cons g l => exact Or.inr ⟨_, rfl⟩
      have := append_inj_sep (seg_no_dot p (ha g (by simp))) (seg_no_dot q (hb g' (by simp))) (shape a) (shape b) h
      rw [seg_inj p q (ha g (by simp)) (hb g' (by simp)) this.1,
        ih '.' b (fun x hx => ha x (by simp [hx])) (fun x hx => hb x (by simp [hx])) this.2]

/-- C07: versions returned by `ParseVersion` that print the same are the same. -/
theorem C07_string_injective {s t : Str} {v w : Ver} (hv : parseVersion s = .ok v) (hw : parseVersion t = .ok w)
    (h : v.string = w.string) : v = w := by
  have p := parsed_shape hv
  have q := parsed_shape hw
  -- reading back the public part
  have back : ∀ {v : Ver}, Parsed v → ∃ z, v.toPubVer.writeTo = some z ∧
      parseVersion z = .ok { v with loc := [] } := by
    intro v p
    have p' : Parsed { v with loc := [] } :=
      { epoch := p.epoch, release := p.release, releaseNN := p.releaseNN, pre := p.pre, post := p.post, dev := p.dev
        locInt := by simp, locStr := by simp }
    obtain ⟨z, hz, hp⟩ := parse_printed (p'.readable (by simp))
    rw [p'.canonPre_id] at hp
    refine ⟨z, ?_, hp⟩
    simp only [Ver.string] at hz
    rcases hx : v.toPubVer.writeTo with _ | x
    · rw [hx] at hz; cases hz
    · rw [hx] at hz; simpa [writeLoc] using hz
  obtain ⟨x, hx, bx⟩ := back p
  obtain ⟨y, hy, by'⟩ := back q
  simp only [Ver.string, hx, hy, Option.some.injEq] at h
  have shape : ∀ l : List Seg, writeLoc '+' l = [] ∨ ∃ t, writeLoc '+' l = '+' :: t := by
    intro l; cases l with
    | nil => exact Or.inl rfl
    | cons g l => exact Or.inr ⟨_, rfl⟩
  obtain ⟨e1, e2⟩ := append_inj_sep (writeTo_no_plus p hx) (writeTo_no_plus q hy) (shape _) (shape _) h
  subst e1
  rw [bx] at by'
  injection by' with by'
  have e3 := writeLoc_inj p q '+' v.loc w.loc (fun _ h => h) (fun _ h => h) e2
  obtain ⟨pv, lv⟩ := v
  obtain ⟨pw, lw⟩ := w
  simp only [Ver.mk.injEq, and_true] at by' e3
  rw [by', e3]

example : ∃ v w, parseVersion "1.0-alpha+1_a".toList = .ok v ∧ parseVersion "1.0a0+1.A".toList = .ok w ∧
    v.string = w.string :=
  ⟨{ epoch := 0, release := [1, 0], pre := some ("a".toList, 0), post := none, dev := none,
     loc := [.int 1, .str "a".toList] },
   { epoch := 0, release := [1, 0], pre := some ("a".toList, 0), post := none, dev := none,
     loc := [.int 1, .str "a".toList] }, by decide +kernel⟩

/-! ### C08 -/

/-- C08: the case of ASCII letters, surrounding blanks and (before a digit) a leading `v` make no difference. -/
theorem C08_case_space_v :
    (∀ s t : Str, SameUpToCase s t → parseVersion s = parseVersion t) ∧
    (∀ a s b : Str, Blank a → Blank b → parseVersion (a ++ s ++ b) = parseVersion s) ∧
    (∀ d t, d ∈ "0123456789".toList → parseVersion ('v' :: d :: t) = parseVersion (d :: t) ∧
      parseVersion ('V' :: d :: t) = parseVersion (d :: t)) := by
  have bl : ∀ s, Blank s → ∀ c ∈ s, reSpace c = true := by
    intro s h c hc
    have := h c hc
    simp only [List.mem_cons, List.not_mem_nil, or_false] at this
    rcases this with rfl | rfl | rfl | rfl | rfl <;> decide
  refine ⟨?_, ?_, ?_⟩
  · intro s t h
    rw [← parse_case s, ← parse_case t, h]
  · intro a s b ha hb
    unfold parseVersion
    rw [match_blank a s b (bl a ha) (bl b hb)]
  · intro d t hd
    have hd : isDig d = true := by revert d; decide
    exact ⟨parse_v rfl hd (Or.inl rfl), parse_v rfl hd (Or.inr rfl)⟩

example : SameUpToCase "1.0RC1".toList "1.0rC1".toList ∧ Blank "\t \n".toList ∧
    (∃ v, parseVersion "1.0RC1".toList = .ok v) :=
  ⟨by unfold SameUpToCase; decide +kernel, by unfold Blank; decide,
   { epoch := 0, release := [1, 0], pre := some ("rc".toList, 1), post := none, dev := none, loc := [] },
   by decide +kernel⟩

end Pep440
