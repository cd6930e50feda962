import Verif.Bdist.FilenameLemmas
import Verif.Bdist.NameSpec
import Verif.Pep440.PropsOrder
/-! Properties C31, C32 and C83: wheel file names and build tags. -/
namespace Bdist
open Go Bdist.Spec Pep440 Pep440.Spec

theorem isDig_mem {c : Char} : isDig c = true ↔ c ∈ "0123456789".toList := by
  constructor
  · intro h
    rw [isDig_iff] at h
    have : c = Char.ofNat (48 + (c.toNat - 48)) := by
      rw [show 48 + (c.toNat - 48) = c.toNat by omega]; exact (Char.ofNat_toNat c).symm
    rw [this]
    have hlt : c.toNat - 48 < 10 := by omega
    generalize c.toNat - 48 = k at hlt
    have : ∀ k < 10, Char.ofNat (48 + k) ∈ "0123456789".toList := by decide
    exact this k hlt
  · intro h; revert c; decide

theorem collapse_spec (p : Char → Bool) (r : Char) (s : Str) :
    Replaced p r s (collapse p r false s) ∧
    ∃ w u, s = w ++ u ∧ (∀ c ∈ w, p c = true) ∧ (∀ c v, u = c :: v → p c = false) ∧
      Replaced p r u (collapse p r true s) := by
  induction s with
  | nil => exact ⟨.nil, [], [], rfl, by simp, by simp, .nil⟩
  | cons c s ih =>
    obtain ⟨h1, w, u, e, hw, hu, h2⟩ := ih
    by_cases hc : p c = true
    · constructor
      · rw [collapse, if_pos hc, if_neg (by simp), e, ← List.cons_append]
        rw [e] at h2
        exact .run (by simp) (by simpa [hc] using hw) hu h2
      · rw [collapse, if_pos hc, if_pos rfl]
        exact ⟨c :: w, u, by rw [e]; rfl, by simpa [hc] using hw, hu, h2⟩
    · have hc' : p c = false := by simpa using hc
      constructor
      · rw [collapse, if_neg hc]; exact .keep hc' h1
      · rw [collapse, if_neg hc]
        exact ⟨[], c :: s, rfl, by simp, by intro d v e; injection e with e _; subst e; exact hc', .keep hc' h1⟩

theorem replaced_mem {p : Char → Bool} {r : Char} {s t : Str} (h : Replaced p r s t) :
    (∀ c ∈ t, c = r ∨ p c = false) ∧ (s ≠ [] → t ≠ []) := by
  induction h with
  | nil => simp
  | keep hc _ ih =>
    refine ⟨?_, by simp⟩
    intro d hd
    simp only [List.mem_cons] at hd
    rcases hd with rfl | hd
    · exact Or.inr hc
    · exact ih.1 d hd
  | run _ _ _ _ ih =>
    refine ⟨?_, by simp⟩
    intro d hd
    simp only [List.mem_cons] at hd
    rcases hd with rfl | hd
    · exact Or.inl rfl
    · exact ih.1 d hd

theorem isNameSep_eq : isNameSep = IsSep := by
  funext c
  simp [isNameSep, IsSep, Bool.or_assoc]

theorem mem_writeRel {ns : List Int} (h : ∀ n ∈ ns, 0 ≤ n) : '-' ∉ writeRel ns := by
  induction ns with
  | nil => simp [writeRel]
  | cons n ns ih =>
    have hd := (digits_itoa (h n (by simp))).2
    simp only [writeRel, List.mem_cons, List.mem_append, not_or]
    exact ⟨by decide, fun hm => absurd (hd _ hm) (by decide), ih (fun m hm => h m (by simp [hm]))⟩

theorem mem_writeLoc {ss : List Seg} (h : ∀ g ∈ ss, Alnum g.string) (sep : Char) (hs : sep ≠ '-') :
    '-' ∉ writeLoc sep ss := by
  induction ss generalizing sep with
  | nil => simp [writeLoc]
  | cons g ss ih =>
    simp only [writeLoc, List.mem_cons, List.mem_append, not_or]
    refine ⟨fun e => hs e.symm, fun hm => absurd ((h g (by simp)).2 _ hm) (by decide),
      ih (fun x hx => h x (by simp [hx])) _ (by decide)⟩

/-- the printed form of a canonical version is a non-empty text without dash -/
theorem printed_field {v : Ver} (h : Printable v) {s : Str} (hs : v.string = some s) : Field s := by
  obtain ⟨n, ns, hrel⟩ := List.exists_cons_of_ne_nil h.release
  have nd : ∀ {n : Int}, 0 ≤ n → '-' ∉ itoa n := fun hn hm => absurd ((digits_itoa hn).2 _ hm) (by decide)
  have hnn := h.releaseNN
  rw [hrel] at hnn
  simp only [Ver.string, PubVer.writeTo, hrel] at hs
  injection hs with hs
  subst hs
  constructor
  · have := (digits_itoa (hnn n (by simp))).1
    simp [this]
  · simp only [List.mem_append, not_or]
    refine ⟨⟨⟨⟨⟨?_, nd (hnn n (by simp)), mem_writeRel (fun m hm => hnn m (by simp [hm]))⟩, ?_⟩, ?_⟩, ?_⟩, ?_⟩
    · split
      · rename_i he
        simp only [List.mem_append, not_or]
        exact ⟨nd (by omega), by decide⟩
      · simp
    · split
      · rename_i l k hp
        have := h.pre l k hp
        simp only [List.mem_append, not_or]
        exact ⟨(show ∀ l ∈ spellings, '-' ∉ l by decide) l this.1, nd this.2⟩
      · simp
    · split
      · rename_i k hp
        simp only [List.mem_append, not_or]
        exact ⟨by decide, nd (h.post k hp)⟩
      · simp
    · split
      · rename_i k hp
        simp only [List.mem_append, not_or]
        exact ⟨by decide, nd (h.dev k hp)⟩
      · simp
    · exact mem_writeLoc h.loc _ (by decide)

theorem group_cons_ne {γ : Type} [DecidableEq γ] {c : Caps γ} {g h : γ} {w : Str} (hn : h ≠ g) :
    group ((h, w) :: c) g = group c g := by
  unfold group; rw [List.find?_cons_of_neg (by simpa using hn)]

theorem group_cons_eq {γ : Type} [DecidableEq γ] {c : Caps γ} {g : γ} {w : Str} : group ((g, w) :: c) g = w := by
  unfold group; rw [List.find?_cons_of_pos (by simp)]

/-- the value of a build component -/
def buildVal : Option (Str × Str) → Option BuildTag
  | some (n, t) => some ⟨atoiSat n, t⟩
  | none => none

theorem parse_nameText {d v : Str} {b : Option (Str × Str)} {p a l : Str} (hd : Field d) (hv : Field v)
    (hb : ∀ x, b = some x → BuildText x) (hp : Field p) (ha : Field a) (hl : Field l) :
    parseFilename (nameText d v b p a l) =
      (match parseVersion v with
       | .error e => .error e
       | .ok ver => .ok { distribution := d, version := ver, build := buildVal b, tag := ⟨p, a, l⟩ }) := by
  unfold parseFilename
  rw [match_nameText hd hv hb hp ha hl]
  cases b with
  | none => simp [group, buildCaps, buildVal]; rfl
  | some b =>
    obtain ⟨n, t⟩ := b
    have hn := (hb _ rfl).1.1
    by_cases ht : t = []
    · subst ht; simp [group, buildCaps, buildVal, hn] at *; rfl
    · simp [group, buildCaps, buildVal, hn, ht] at *; rfl

theorem wheelName_eq (d v : Str) (p a l : Str) :
    wheelName [d, v, p, a, l] = nameText d v none p a l := by
  simp [wheelName, nameText, join, buildTxt]

theorem wheelName_build_eq (d v n t : Str) (p a l : Str) :
    wheelName [d, v, n ++ t, p, a, l] = nameText d v (some (n, t)) p a l := by
  simp [wheelName, nameText, join, buildTxt]

/-- C31 (partial): a generated file name parses back to the normalised distribution, the normalised version, the same
build tag and the same compatibility tag.  Missing: versions whose normal form has a negative number in its local
label; such versions cannot come from `ParseVersion` (see `C31_parsed_versions`), but can be written down, and then
the claim is false (`C31_violated`). -/
theorem C31_round_trip_partial {d : FileNameData} {name : Str} (h : generateFilename d = some (.ok name))
    (hdist : d.distribution ≠ []) (htag : d.tag.python ≠ [] ∧ d.tag.abi ≠ [] ∧ d.tag.platform ≠ [])
    (hbuild : ∀ b, d.build = some b → b.int < 2 ^ 63 ∧ ∀ c u, b.str = c :: u → c ∉ "0123456789".toList) :
    ∃ dist n, Replaced IsSep '_' d.distribution dist ∧ d.version.normalize = some (.ok n) ∧
      ((∀ k, Seg.int k ∈ n.loc → 0 ≤ k) →
        parseFilename name = .ok { distribution := dist, version := n, build := d.build, tag := d.tag }) := by
  have hrep := (collapse_spec isNameSep '_' d.distribution).1
  unfold generateFilename at h
  simp only at h
  split at h
  · cases h
  · cases h
  · rename_i n hn
    refine ⟨_, n, isNameSep_eq ▸ hrep, hn, ?_⟩
    intro hloc
    have hpar : ∃ s, parseVersion s = .ok n := by
      unfold Ver.normalize at hn
      split at hn
      · cases hn
      · injection hn with hn; exact ⟨_, hn⟩
    obtain ⟨s, hs⟩ := hpar
    obtain ⟨t, ht, hp⟩ := C04_parse_print_parse_partial hs hloc
    have hvf := printed_field ((parsed_shape hs).readable hloc).printable ht
    have hdist' : Field (collapse isNameSep '_' false d.distribution) := by
      have := replaced_mem hrep
      refine ⟨this.2 hdist, fun hm => ?_⟩
      rcases this.1 _ hm with e | e <;> exact absurd e (by decide)
    have tagOK : d.tag.string.count '-' = 2 → Field d.tag.python ∧ Field d.tag.abi ∧ Field d.tag.platform := by
      intro hcount
      unfold Pep425.Tag.string at hcount
      simp only [List.count_append, List.count_cons_self] at hcount
      have z : ∀ {w : Str}, w.count '-' = 0 → '-' ∉ w := fun h => List.count_eq_zero.mp h
      exact ⟨⟨htag.1, z (by omega)⟩, ⟨htag.2.1, z (by omega)⟩, ⟨htag.2.2, z (by omega)⟩⟩
    rw [ht] at h
    cases hbt : d.build with
    | none =>
      simp only [hbt, Bool.false_eq_true, if_false] at h
      by_cases hcount : d.tag.string.count '-' = 2
      · rw [if_neg (by simpa using hcount)] at h
        injection h with h; injection h with h
        obtain ⟨hpf, haf, hlf⟩ := tagOK hcount
        have e : name = nameText (collapse isNameSep '_' false d.distribution) t none d.tag.python d.tag.abi
            d.tag.platform := by
          rw [← h]; simp [nameText, buildTxt, Pep425.Tag.string]
        rw [e, parse_nameText hdist' hvf (by simp) hpf haf hlf, hp]; rw [← isNameSep_eq]; rfl
      · rw [if_pos (by simpa using hcount)] at h; cases h
    | some b =>
      simp only [hbt] at h
      by_cases hdash : b.string.contains '-' = true
      · rw [if_pos hdash] at h; cases h
      rw [if_neg hdash] at h
      by_cases hcount : d.tag.string.count '-' = 2
      · rw [if_neg (by simpa using hcount)] at h
        injection h with h; injection h with h
        obtain ⟨hpf, haf, hlf⟩ := tagOK hcount
        have hnd : '-' ∉ b.string := by simpa using hdash
        unfold BuildTag.string at hnd
        simp only [List.mem_append, not_or] at hnd
        have hpos : 0 ≤ b.int := by
          rcases Int.lt_or_le b.int 0 with hneg | hpos
          · exact absurd (by unfold itoa; rw [if_pos hneg]; simp) hnd.1
          · exact hpos
        have hb := hbuild b hbt
        have e : name = nameText (collapse isNameSep '_' false d.distribution) t (some (itoa b.int, b.str))
            d.tag.python d.tag.abi d.tag.platform := by
          rw [← h]; simp [nameText, buildTxt, Pep425.Tag.string, BuildTag.string]
        have hbx : ∀ x, some (itoa b.int, b.str) = some x → BuildText x := by
          intro x hx; injection hx with hx; subst hx
          refine ⟨digits_itoa hpos, hnd.2, ?_⟩
          intro c u e
          have := hb.2 c u e
          rw [← isDig_mem] at this
          simpa using this
        rw [e, parse_nameText hdist' hvf hbx hpf haf hlf, hp]
        simp only [buildVal, atoiSat, atoi_itoa hpos hb.1, ← isNameSep_eq]
      · rw [if_pos (by simpa using hcount)] at h; cases h

/-- C31 for versions that come from `ParseVersion`, with no local number past the `int32` range: the full claim, and
the version read back is the one given. -/
theorem C31_parsed_versions {d : FileNameData} {name vs : Str} (h : generateFilename d = some (.ok name))
    (hv : parseVersion vs = .ok d.version) (hloc : ∀ k, Seg.int k ∈ d.version.loc → 0 ≤ k)
    (hdist : d.distribution ≠ []) (htag : d.tag.python ≠ [] ∧ d.tag.abi ≠ [] ∧ d.tag.platform ≠ [])
    (hbuild : ∀ b, d.build = some b → b.int < 2 ^ 63 ∧ ∀ c u, b.str = c :: u → c ∉ "0123456789".toList) :
    ∃ dist, Replaced IsSep '_' d.distribution dist ∧
      parseFilename name = .ok { distribution := dist, version := d.version, build := d.build, tag := d.tag } := by
  obtain ⟨dist, n, h1, h2, h3⟩ := C31_round_trip_partial h hdist htag hbuild
  obtain ⟨t, ht, hp⟩ := C04_parse_print_parse_partial hv hloc
  unfold Ver.normalize at h2
  rw [ht] at h2
  simp only [hp] at h2
  injection h2 with h2; injection h2 with h2
  subst h2
  exact ⟨dist, h1, h3 hloc⟩

/-- C31 is violated: local label segment given as the string `2147483648`. -/
theorem C31_violated : ∃ name, generateFilename
      { distribution := "foo".toList
        version := { epoch := 0, release := [1], pre := none, post := none, dev := none, loc := [.str "2147483648".toList] }
        build := none, tag := ⟨"py3".toList, "none".toList, "any".toList⟩ } = some (.ok name) ∧
    parseFilename name = .error () :=
  ⟨"foo-1+-2147483648-py3-none-any.whl".toList, by decide +kernel⟩

example : generateFilename
      { distribution := "foo-bar".toList
        version := { epoch := 0, release := [1, 0], pre := none, post := none, dev := none, loc := [] }
        build := some ⟨7, "b".toList⟩, tag := ⟨"py2.py3".toList, "none".toList, "any".toList⟩ } =
    some (.ok "foo_bar-1.0-7b-py2.py3-none-any.whl".toList) := by decide +kernel

/-- C83: `ParseFilename` accepts exactly the texts made of a distribution, a valid version, an optional build
component and the three tag components, joined by dashes and ending in `.whl`; and returns exactly these parts. -/
theorem C83_parse_exact (s : Str) (r : FileNameData) :
    parseFilename s = .ok r ↔
      ∃ vs, Component r.distribution ∧ Component vs ∧ Component r.tag.python ∧ Component r.tag.abi ∧
        Component r.tag.platform ∧ parseVersion vs = .ok r.version ∧
        ((r.build = none ∧ s = wheelName [r.distribution, vs, r.tag.python, r.tag.abi, r.tag.platform]) ∨
         (∃ digits rest, BuildComponent digits rest ∧
            (∃ k : Int, r.build = some ⟨k, rest⟩ ∧ (atoi digits = some k ∨ (atoi digits = none ∧ k = 2 ^ 63 - 1))) ∧
            s = wheelName [r.distribution, vs, digits ++ rest, r.tag.python, r.tag.abi, r.tag.platform])) := by
  constructor
  · intro h
    have hm : ∃ m, reFilename.matchFull s = some m := by
      unfold parseFilename at h
      split at h
      · cases h
      · exact ⟨_, by assumption⟩
    obtain ⟨m, hm⟩ := hm
    obtain ⟨d, v, b, p, a, l, hd, hv, hb, hp, ha, hl, rfl⟩ := nameText_of_match hm
    rw [parse_nameText hd hv hb hp ha hl] at h
    split at h
    · cases h
    · rename_i ver hver
      injection h with h; subst h
      refine ⟨v, hd, hv, hp, ha, hl, hver, ?_⟩
      cases b with
      | none => left; exact ⟨rfl, (wheelName_eq ..).symm⟩
      | some b =>
        right
        obtain ⟨n, t⟩ := b
        have hb := hb _ rfl
        refine ⟨n, t, ⟨hb.1.1, fun c hc => isDig_mem.mp (hb.1.2 c hc), hb.2.1, ?_⟩, ?_, (wheelName_build_eq ..).symm⟩
        · intro c u e hc
          have := hb.2.2 c u e
          rw [isDig_mem.mpr hc] at this; cases this
        · refine ⟨atoiSat n, rfl, ?_⟩
          unfold atoiSat
          cases atoi n <;> simp
  · rintro ⟨vs, hd, hv, hp, ha, hl, hver, h⟩
    rcases h with ⟨hb, rfl⟩ | ⟨n, t, ⟨b1, b2, b3, b4⟩, ⟨k, hb, hk⟩, rfl⟩
    · rw [wheelName_eq, parse_nameText hd hv (by simp) hp ha hl, hver]
      simp only [buildVal, ← hb]
    · rw [wheelName_build_eq, parse_nameText hd hv _ hp ha hl, hver]
      · simp only [buildVal]
        have : atoiSat n = k := by
          unfold atoiSat
          rcases hk with hk | ⟨hk, rfl⟩ <;> rw [hk]
        rw [this, ← hb]
      · intro x hx; injection hx with hx; subst hx
        refine ⟨⟨b1, fun c hc => isDig_mem.mpr (b2 c hc)⟩, b3, ?_⟩
        intro c u e
        have := b4 c u e
        rw [← isDig_mem] at this
        simpa using this

example : parseFilename "distribution-1.0-1-py27-none-any.whl".toList = .ok
      { distribution := "distribution".toList
        version := { epoch := 0, release := [1, 0], pre := none, post := none, dev := none, loc := [] }
        build := some ⟨1, []⟩, tag := ⟨"py27".toList, "none".toList, "any".toList⟩ } ∧
    parseFilename "distribution-1.0-x1-py27-none-any.whl".toList = .error () := by decide +kernel

/-- C83 consequence: a wheel name has only one reading -/
theorem C83_reading_unique {d v p a l d' v' p' a' l' : Str} (h : wheelName [d, v, p, a, l] = wheelName [d', v', p', a', l'])
    (h1 : Component d ∧ Component v ∧ Component p ∧ Component a ∧ Component l)
    (h2 : Component d' ∧ Component v' ∧ Component p' ∧ Component a' ∧ Component l') :
    d = d' ∧ v = v' ∧ p = p' ∧ a = a' ∧ l = l' := by
  rw [wheelName_eq, wheelName_eq] at h
  have e1 := match_nameText h1.1 h1.2.1 (b := none) (by simp) h1.2.2.1 h1.2.2.2.1 h1.2.2.2.2
  have e2 := match_nameText h2.1 h2.2.1 (b := none) (by simp) h2.2.2.1 h2.2.2.2.1 h2.2.2.2.2
  rw [h, e2] at e1
  simp [buildCaps] at e1
  obtain ⟨a1, a2, a3, a4, a5⟩ := e1
  exact ⟨a1.symm, a2.symm, a3.symm, a4.symm, a5.symm⟩

/-! ### C32 -/

/-- the order of PEP 427: no build tag sorts first, then the number, then the rest -/
def buildOrder : Option BuildTag → Option BuildTag → Ordering
  | none, none => .eq
  | none, some _ => .lt
  | some _, none => .gt
  | some a, some b => (compare a.int b.int).then (List.compareLex compare a.str b.str)

/-- a build number that fits a non-negative `int` -/
def WFBuild (b : Option BuildTag) : Prop := ∀ t, b = some t → 0 ≤ t.int ∧ t.int < 2 ^ 63

def buildKey : Option BuildTag → Ext (Int × Str)
  | none => .negInf
  | some t => .fin (t.int, t.str)

theorem buildOrder_key (a b : Option BuildTag) :
    buildOrder a b = Ext.cmp (cmpPair compare (List.compareLex compare)) (buildKey a) (buildKey b) := by
  cases a <;> cases b <;> rfl

instance buildOrderTrans : Std.TransCmp buildOrder := by
  have : buildOrder = fun a b => Ext.cmp (cmpPair compare (List.compareLex compare)) (buildKey a) (buildKey b) := by
    funext a b; exact buildOrder_key a b
  rw [this]
  exact comapTrans buildKey _

theorem buildCmp_spec {a b : Option BuildTag} (ha : WFBuild a) (hb : WFBuild b) :
    ordOf (buildCmp a b) = buildOrder a b := by
  rcases a with _ | a <;> rcases b with _ | b
  · rfl
  · rfl
  · rfl
  · have wa := ha _ rfl
    have wb := hb _ rfl
    simp only [buildCmp, buildOrder]
    rw [sub64_nonneg wa.1 wa.2 wb.1 wb.2]
    by_cases h : a.int - b.int = 0
    · rw [if_neg (by simpa using h)]
      have : a.int = b.int := by omega
      rw [this, show compare b.int b.int = .eq from Std.ReflCmp.compare_self]
      have := strCmp_spec a.str b.str
      unfold strLt at this
      simpa using this
    · rw [if_pos h, ordOf_sub]
      have : compare a.int b.int ≠ .eq := by
        intro e; rw [Std.LawfulEqOrd.compare_eq_iff_eq] at e; omega
      cases hc : compare a.int b.int <;> simp_all

/-- C32: `Cmp` computes the order of PEP 427, which is a total order. -/
theorem C32_build_order {a b c : Option BuildTag} (ha : WFBuild a) (hb : WFBuild b) (hc : WFBuild c) :
    ((buildCmp a b < 0 ↔ buildOrder a b = .lt) ∧ (buildCmp a b = 0 ↔ buildOrder a b = .eq) ∧
      (0 < buildCmp a b ↔ buildOrder a b = .gt)) ∧
    (buildCmp a b = 0 ↔ a = b) ∧
    (buildCmp a b < 0 ↔ 0 < buildCmp b a) ∧
    (buildCmp a b ≤ 0 → buildCmp b c ≤ 0 → buildCmp a c ≤ 0) ∧
    (buildCmp none b ≤ 0) := by
  have sab := buildCmp_spec ha hb
  have sba := buildCmp_spec hb ha
  have sbc := buildCmp_spec hb hc
  have sac := buildCmp_spec ha hc
  have le : ∀ z : Int, z ≤ 0 ↔ (ordOf z).isLE := by
    intro z
    rcases Int.lt_trichotomy z 0 with h | h | h
    · rw [ordOf_eq_lt.2 h]; simp; omega
    · rw [ordOf_eq_eq.2 h]; simp; omega
    · rw [ordOf_eq_gt.2 h]; simp; omega
  have e0 : buildCmp a b = 0 ↔ buildOrder a b = .eq := by rw [← sab, ordOf_eq_eq]
  refine ⟨⟨by rw [← sab, ordOf_eq_lt], e0, by rw [← sab, ordOf_eq_gt]⟩, ?_, ?_, ?_, ?_⟩
  · rw [e0]
    rcases a with _ | a <;> rcases b with _ | b <;> simp only [buildOrder, reduceCtorEq]
    obtain ⟨i, s⟩ := a; obtain ⟨j, t⟩ := b
    rw [Ordering.then_eq_eq, Std.LawfulEqOrd.compare_eq_iff_eq]
    simp only [Option.some.injEq, BuildTag.mk.injEq]
    constructor
    · rintro ⟨h1, h2⟩; exact ⟨h1, Std.LawfulEqCmp.eq_of_compare h2⟩
    · rintro ⟨h1, h2⟩; exact ⟨h1, by rw [h2]; exact Std.ReflCmp.compare_self⟩
  · have := Std.OrientedCmp.eq_swap (cmp := buildOrder) (a := a) (b := b)
    rw [← ordOf_eq_lt, ← ordOf_eq_gt, sab, sba, this]
    cases buildOrder b a <;> simp
  · intro h1 h2
    rw [le, sab] at h1; rw [le, sbc] at h2; rw [le, sac]
    exact Std.TransCmp.isLE_trans h1 h2
  · cases b <;> simp [buildCmp]

example : WFBuild (some ⟨12, "a".toList⟩) ∧ buildCmp (some ⟨2, "z".toList⟩) (some ⟨12, "a".toList⟩) < 0 ∧
    buildCmp none (some ⟨0, []⟩) < 0 := by
  refine ⟨?_, by decide +kernel, by decide +kernel⟩
  intro t h; injection h with h; subst h; simp

end Bdist
