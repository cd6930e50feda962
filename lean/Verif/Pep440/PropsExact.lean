import Verif.Pep440.GrammarNormal
import Verif.Pep440.PropsOrder
import Verif.Pep440.PropsSpecParse
/-! Exactly when printing and parsing again gives a version back (C04, C06), and exactly when reading a specifier
panics (C18). -/
namespace Pep440
open Go Spec

theorem lang_accepts {γ : Type} {r : Re γ} {w : Str} (h : r.Lang w) {c : Char} (hc : c ∈ w) : r.accepts c = true := by
  obtain ⟨m, hm⟩ := (Re.run_lang r w []).mpr ⟨w, by simp, h⟩
  obtain ⟨w', e, ha⟩ := Re.run_split r w _ hm
  have e : w = w' := by simpa using e
  exact ha c (e ▸ hc)

/-- after the character `p`, no `-` of the text directly follows a `+` or a `.` -/
def noDash (p : Char) : Str → Bool
  | [] => true
  | c :: s => !(c = '-' && (p = '+' || p = '.')) && noDash c s

theorem noDash_split {p : Char} {s a b : Str} {d : Char} (h : noDash p s = true) (e : p :: s = a ++ d :: '-' :: b)
    (hd : d = '+' ∨ d = '.') : False := by
  induction s generalizing p a with
  | nil =>
    cases a with
    | nil => simp at e
    | cons x a => have := congrArg List.length e; simp at this
  | cons c s ih =>
    simp only [noDash, Bool.and_eq_true] at h
    cases a with
    | nil =>
      simp only [List.nil_append, List.cons.injEq] at e
      obtain ⟨rfl, rfl, _⟩ := e
      rcases hd with rfl | rfl <;> simp at h
    | cons x a =>
      simp only [List.cons_append, List.cons.injEq] at e
      exact ih h.2 e.2

theorem alnum_ne {c : Char} (h : ciAlnum c = true) : c ≠ '-' ∧ c ≠ '+' ∧ c ≠ '.' := by
  refine ⟨?_, ?_, ?_⟩ <;> rintro rfl <;> revert h <;> decide

theorem noDash_alnum {w s : Str} {p : Char} (h : ∀ c ∈ w, ciAlnum c = true) (hne : w ≠ [])
    (hs : ∀ c, ciAlnum c = true → noDash c s = true) : noDash p (w ++ s) = true := by
  induction w generalizing p with
  | nil => exact absurd rfl hne
  | cons c w ih =>
    have hc := h c (by simp)
    simp only [List.cons_append, noDash, Bool.and_eq_true]
    refine ⟨by simp [(alnum_ne hc).1], ?_⟩
    cases w with
    | nil => exact hs c hc
    | cons d w => exact ih (fun x hx => h x (List.mem_cons_of_mem _ hx)) (by simp)

theorem noDash_space {w : Str} {p : Char} (h : ∀ c ∈ w, c ≠ '-') : noDash p w = true := by
  induction w generalizing p with
  | nil => rfl
  | cons c w ih =>
    simp only [noDash, Bool.and_eq_true]
    exact ⟨by simp [h c (by simp)], ih (fun x hx => h x (List.mem_cons_of_mem _ hx))⟩

theorem lang_plus_alnum {w : Str} (h : (Re.plus (.chr ciAlnum) : Re Grp).Lang w) :
    w ≠ [] ∧ ∀ c ∈ w, ciAlnum c = true := by
  have ha := fun c (hc : c ∈ w) => lang_accepts h hc
  unfold Re.plus at h
  obtain ⟨u, v, rfl, ⟨c, rfl, _⟩, _⟩ := h
  exact ⟨by simp, fun c hc => by simpa [Re.plus, Re.accepts] using ha c hc⟩

/-- what a version text has behind its `+`: letters and digits, more of these behind separators, and blanks -/
theorem lang_local_shape {s u : Str} (h : reVersion.Lang (s ++ '+' :: u)) :
    ∃ (w : Str) (us : List Str) (b : Str), u = w ++ us.flatten ++ b ∧ (w ≠ [] ∧ ∀ c ∈ w, ciAlnum c = true) ∧
      (∀ y ∈ us, ∃ d q, y = d :: q ∧ q ≠ [] ∧ ∀ c ∈ q, ciAlnum c = true) ∧ ∀ c ∈ b, c ≠ '-' ∧ c ≠ '.' := by
  unfold reVersion reCore at h
  obtain ⟨a1, r1, e1, h1, core, b, e2, h2, hb⟩ := h
  simp only [Re.seqs] at h2
  obtain ⟨a2, r2, e3, h3, a3, r3, e4, h4, a4, r4, e5, h5, a5, r5, e6, h6, a6, r6, e7, h7, a7, r7, e8, h8, h9⟩ := h2
  have key : ∀ {r : Re Grp} {w : Str}, r.Lang w → r.accepts '+' = false → '+' ∉ w := by
    intro r w hl ha hm
    rw [lang_accepts hl hm] at ha; cases ha
  have n1 := key h1 (by decide +kernel)
  have n2 := key h3 (by decide +kernel)
  have n3 := key h4 (by decide +kernel)
  have n4 := key h5 (by decide +kernel)
  have n5 := key h6 (by decide +kernel)
  have n6 := key h7 (by decide +kernel)
  have n7 := key h8 (by decide +kernel)
  have nb := key hb (by decide +kernel)
  have nbd : ∀ c ∈ b, c ≠ '-' ∧ c ≠ '.' := by
    intro c hc
    constructor <;> rintro rfl <;> have := lang_accepts hb hc <;> revert this <;> decide +kernel
  obtain ⟨A, hA, eA⟩ : ∃ A, '+' ∉ A ∧ s ++ '+' :: u = A ++ (r7 ++ b) := by
    refine ⟨a1 ++ a2 ++ a3 ++ a4 ++ a5 ++ a6 ++ a7, ?_, ?_⟩
    · simp only [List.mem_append, not_or]; exact ⟨⟨⟨⟨⟨⟨n1, n2⟩, n3⟩, n4⟩, n5⟩, n6⟩, n7⟩
    · rw [e1, e2, e3, e4, e5, e6, e7, e8]; simp [List.append_assoc]
  unfold reLocal at h9
  rcases h9 with rfl | ⟨p, x, rfl, ⟨c, rfl, hc⟩, hx⟩
  · exfalso
    have : '+' ∈ A ++ ([] ++ b) := eA ▸ (by simp)
    simp [hA, nb] at this
  have hc : c = '+' := by simpa [lit] using hc
  subst hc
  obtain ⟨w, v, rfl, hw, us, rfl, hus⟩ := hx
  have hw := lang_plus_alnum hw
  have nv : '+' ∉ us.flatten := by
    intro hm
    obtain ⟨y, hy, hm⟩ := List.mem_flatten.mp hm
    have := lang_accepts (hus y hy) hm
    revert this; decide +kernel
  have nw : '+' ∉ w := fun hm => (alnum_ne (hw.2 _ hm)).2.1 rfl
  have eu : u = w ++ us.flatten ++ b := by
    have e : s ++ '+' :: u = A ++ '+' :: (w ++ us.flatten ++ b) := by simpa using eA
    rcases List.append_eq_append_iff.mp e with ⟨z, hz, e'⟩ | ⟨z, hz, e'⟩
    · cases z with
      | nil => simpa using e'
      | cons y z =>
        exfalso
        simp only [List.cons_append, List.cons.injEq] at e'
        rw [← e'.1] at hz
        exact hA (by rw [hz]; simp)
    · cases z with
      | nil => simpa using e'.symm
      | cons y z =>
        exfalso
        simp only [List.cons_append, List.cons.injEq] at e'
        have : '+' ∈ w ++ us.flatten ++ b := by rw [e'.2]; simp
        simp [nw, nv, nb] at this
  refine ⟨w, us, b, eu, hw, ?_, nbd⟩
  intro y hy
  obtain ⟨p, q, rfl, ⟨d, rfl, _⟩, hq⟩ := hus y hy
  have hq := lang_plus_alnum hq
  exact ⟨d, q, rfl, hq.1, hq.2⟩

theorem lang_local {s u : Str} (h : reVersion.Lang (s ++ '+' :: u)) : noDash '+' u = true := by
  obtain ⟨w, us, b, rfl, hw, hus, hb⟩ := lang_local_shape h
  rw [List.append_assoc]
  refine noDash_alnum hw.2 hw.1 (fun c hc => ?_)
  clear h
  induction us generalizing c with
  | nil => exact noDash_space (fun c hc => (hb c hc).1)
  | cons y us ih =>
    obtain ⟨d, q, rfl, hq1, hq2⟩ := hus y (by simp)
    simp only [List.flatten_cons, List.cons_append, List.append_assoc, noDash, Bool.and_eq_true]
    refine ⟨by simp [(alnum_ne hc).2], ?_⟩
    exact noDash_alnum hq2 hq1 (fun c hc => ih (fun u hu => hus u (List.mem_cons_of_mem _ hu)) c hc)

/-- a version text does not end in `+`, nor in a dot behind a `+` -/
theorem lang_local_end {s u : Str} (h : reVersion.Lang (s ++ '+' :: u)) : u ≠ [] ∧ ∀ a, u ≠ a ++ ['.'] := by
  obtain ⟨w, us, b, rfl, ⟨hw, hw'⟩, hus, hb⟩ := lang_local_shape h
  refine ⟨by simp [hw], fun a e => ?_⟩
  rcases List.eq_nil_or_concat b with rfl | ⟨b, c, rfl⟩
  · rw [List.append_nil] at e
    rcases List.eq_nil_or_concat us with rfl | ⟨us, y, rfl⟩
    · rw [List.flatten_nil, List.append_nil] at e
      exact (alnum_ne (hw' '.' (by rw [e]; simp))).2.2 rfl
    · obtain ⟨d, q, rfl, hq, hq'⟩ := hus y (by simp)
      rcases List.eq_nil_or_concat q with rfl | ⟨q, c, rfl⟩
      · exact hq rfl
      · have e := congrArg List.getLast? e
        simp at e
        rw [← List.cons_append, List.getLast?_concat, Option.some.injEq] at e
        exact (alnum_ne (hq' c (by simp))).2.2 e
  · have e := congrArg List.getLast? e
    simp at e
    exact (hb c (by simp)).2 e

theorem writeLoc_neg {l : List Seg} {n : Int} (hn : n < 0) (hm : Seg.int n ∈ l) {sep : Char} :
    ∃ a d b, writeLoc sep l = a ++ d :: '-' :: b ∧ (d = sep ∨ d = '.') := by
  induction l generalizing sep with
  | nil => cases hm
  | cons x l ih =>
    rcases List.mem_cons.mp hm with rfl | hm
    · refine ⟨[], sep, itoaNat n.natAbs ++ writeLoc '.' l, ?_, Or.inl rfl⟩
      rw [writeLoc, Seg.string, itoa, if_pos hn]; rfl
    · obtain ⟨a, d, b, e, hd⟩ := ih hm (sep := '.')
      exact ⟨sep :: (x.string ++ a), d, b, by rw [writeLoc, e]; simp, Or.inr (by simpa using hd)⟩

/-- a version with a negative number among its local segments prints as a text that is not a version -/
theorem neg_unreadable {v : Ver} {t : Str} (ht : v.string = some t) {n : Int} (hn : n < 0) (hm : Seg.int n ∈ v.loc) :
    parseVersion t = .error () := by
  cases hp : parseVersion t with
  | error e => rfl
  | ok w =>
    exfalso
    unfold parseVersion at hp
    split at hp
    · cases hp
    rename_i m hmatch
    have hl := match_lang hmatch
    unfold Ver.string at ht
    split at ht
    · cases ht
    rename_i s hs
    cases ht
    obtain ⟨a, d, b, e, hd⟩ := writeLoc_neg hn hm (sep := '+')
    cases hloc : v.loc with
    | nil => rw [hloc] at hm; cases hm
    | cons x l =>
      rw [hloc] at hl e
      rw [writeLoc] at hl e
      exact noDash_split (lang_local hl) e hd

/-- C04, exactly: a version that was read prints as a text that is read as the same version if and only if none of
its local segments is a negative number (which only happens when a number of 2³¹ or more was truncated); otherwise
what it prints is not a version at all. -/
theorem C04_exact {s : Str} {v : Ver} (h : parseVersion s = .ok v) :
    ((∃ t, v.string = some t ∧ parseVersion t = .ok v) ↔ ∀ n, Seg.int n ∈ v.loc → 0 ≤ n) ∧
    ((∃ t, v.string = some t ∧ parseVersion t = .error ()) ↔ ∃ n, Seg.int n ∈ v.loc ∧ n < 0) := by
  have fwd : (∀ n, Seg.int n ∈ v.loc → 0 ≤ n) → ∃ t, v.string = some t ∧ parseVersion t = .ok v :=
    C04_parse_print_parse_partial h
  have hs : ∃ t, v.string = some t := by
    have p := parsed_shape h
    let v' : Ver := { v with loc := [] }
    have p' : Parsed v' := ⟨p.epoch, p.release, p.releaseNN, p.pre, p.post, p.dev, (fun _ h => by cases h), (fun _ h => by cases h)⟩
    obtain ⟨t, ht, _⟩ := parse_printed (p'.readable (fun _ h => by cases h))
    unfold Ver.string at ht ⊢
    have e : v'.toPubVer = v.toPubVer := rfl
    rw [e] at ht
    split at ht
    · cases ht
    · exact ⟨_, rfl⟩
  have bwd : ∀ n, Seg.int n ∈ v.loc → n < 0 → ∀ t, v.string = some t → parseVersion t = .error () :=
    fun n hm hn t ht => neg_unreadable ht hn hm
  refine ⟨⟨fun ⟨t, ht, hp⟩ n hm => ?_, fwd⟩, ⟨fun ⟨t, ht, hp⟩ => ?_, fun ⟨n, hm, hn⟩ => ?_⟩⟩
  · rcases Int.lt_or_le n 0 with hn | hn
    · rw [bwd n hm hn t ht] at hp; cases hp
    · exact hn
  · rcases Classical.em (∃ n, Seg.int n ∈ v.loc ∧ n < 0) with hx | hx
    · exact hx
    · obtain ⟨t', ht', hp'⟩ := fwd (fun n hm => Int.not_lt.mp (fun hn => hx ⟨n, hm, hn⟩))
      rw [ht] at ht'; cases ht'; rw [hp] at hp'; cases hp'
  · obtain ⟨t, ht⟩ := hs
    exact ⟨t, ht, bwd n hm hn t ht⟩

-- a version that comes back, and one that does not
example : (∃ v t, parseVersion " v1.0+Ubuntu_007 ".toList = .ok v ∧ v.string = some t ∧ parseVersion t = .ok v) ∧
    (∃ v, parseVersion "1+a.4294967295".toList = .ok v ∧ Seg.int (-1) ∈ v.loc) :=
  ⟨⟨{ epoch := 0, release := [1, 0], pre := none, post := none, dev := none, loc := [.str "ubuntu".toList, .int 7] },
    "1.0+ubuntu.7".toList, by decide +kernel⟩,
   ⟨{ epoch := 0, release := [1], pre := none, post := none, dev := none, loc := [.str "a".toList, .int (-1)] },
    by decide +kernel⟩⟩

/-- C06, exactly: what normalizing gives normalizes to itself if and only if none of its local segments is a negative
number; otherwise normalizing it again fails. -/
theorem C06_exact {v n : Ver} (h : v.normalize = some (.ok n)) :
    (n.normalize = some (.ok n) ↔ ∀ k, Seg.int k ∈ n.loc → 0 ≤ k) ∧
    (n.normalize = some (.error ()) ↔ ∃ k, Seg.int k ∈ n.loc ∧ k < 0) := by
  have hp : ∃ s, parseVersion s = .ok n := by
    unfold Ver.normalize at h
    split at h
    · cases h
    · injection h with h; exact ⟨_, h⟩
  obtain ⟨s, hp⟩ := hp
  have e : ∀ r, n.normalize = some r ↔ ∃ t, n.string = some t ∧ parseVersion t = r := by
    intro r
    unfold Ver.normalize
    split
    · rename_i hn; simp [hn]
    · rename_i t hn; simp [hn]
  rw [e, e]
  exact C04_exact hp

example : ∃ v n : Ver, v.normalize = some (.ok n) ∧ Seg.int (-2147483648) ∈ n.loc ∧ n.normalize = some (.error ()) :=
  ⟨{ epoch := 0, release := [1], pre := none, post := none, dev := none, loc := [.str "2147483648".toList] },
   { epoch := 0, release := [1], pre := none, post := none, dev := none, loc := [.int (-2147483648)] },
   by decide +kernel⟩

/-! ### C18 -/

theorem parseClause_none {s : Str} : parseClause s = none ↔ trimSpace s = "<".toList ∨ trimSpace s = ">".toList := by
  constructor
  · intro hn
    unfold parseClause at hn
    split at hn
    · rename_i hs; exact splitOp_none hs
    · cases hn
    · repeat' split at hn
      all_goals cases hn
  · rintro (h | h) <;> (unfold parseClause; rw [h]; decide +kernel)

/-- reading one comma-separated part -/
theorem parse_part {str p : Str} (hp : p ∈ fieldsFunc (fun c => c = ',') str) : parseSpecifier p = parseClauses [p] := by
  obtain ⟨h1, h2⟩ := mem_fieldsFunc hp
  unfold parseSpecifier
  rw [fieldsFunc_none h1 (fun c hc => (h2 c hc).2)]

theorem parseClauses_none {l : List Str} : parseClauses l = none ↔
    ∃ before part after, l = before ++ part :: after ∧ (trimSpace part = "<".toList ∨ trimSpace part = ">".toList) ∧
      ∀ p ∈ before, ∃ sp, parseClauses [p] = some (.ok sp) := by
  induction l with
  | nil => simp [parseClauses]
  | cons s ss ih =>
    have one : parseClauses [s] = if trimSpace s = [] then some (.ok [])
        else match parseClause (trimSpace s) with
          | none => none
          | some (.error e) => some (.error e)
          | some (.ok c) => some (.ok [c]) := by
      rw [parseClauses]; rfl
    have step : (∃ sp, parseClauses [s] = some (.ok sp)) → (parseClauses (s :: ss) = none ↔ parseClauses ss = none) := by
      rintro ⟨sp, hsp⟩
      rw [one] at hsp
      rw [parseClauses]
      split
      · rfl
      · rename_i h0
        rw [if_neg h0] at hsp
        split
        · rename_i hx; rw [hx] at hsp; cases hsp
        · rename_i hx; rw [hx] at hsp; cases hsp
        · split <;> simp_all
    have bad : (trimSpace s = "<".toList ∨ trimSpace s = ">".toList) → parseClauses (s :: ss) = none := by
      intro h
      rw [parseClauses, if_neg (by rcases h with h | h <;> rw [h] <;> decide)]
      rw [parseClause_none.mpr (by rw [trimSpace_idem]; exact h)]
    constructor
    · intro h
      by_cases hs : trimSpace s = "<".toList ∨ trimSpace s = ">".toList
      · exact ⟨[], s, ss, rfl, hs, fun _ h => nomatch h⟩
      · have ok : ∃ sp, parseClauses [s] = some (.ok sp) := by
          rw [one]
          rw [parseClauses] at h
          split
          · exact ⟨_, rfl⟩
          · rename_i h0
            rw [if_neg h0] at h
            split
            · rename_i hx
              rw [parseClause_none, trimSpace_idem] at hx
              exact absurd hx hs
            · rename_i hx; rw [hx] at h; cases h
            · exact ⟨_, rfl⟩
        obtain ⟨b, p, a, rfl, hp, hb⟩ := ih.mp ((step ok).mp h)
        refine ⟨s :: b, p, a, rfl, hp, fun q hq => ?_⟩
        rcases List.mem_cons.mp hq with rfl | hq
        · exact ok
        · exact hb q hq
    · rintro ⟨b, p, a, e, hp, hb⟩
      cases b with
      | nil =>
        simp only [List.nil_append, List.cons.injEq] at e
        rw [← e.1] at hp
        exact bad hp
      | cons q b =>
        simp only [List.cons_append, List.cons.injEq] at e
        obtain ⟨rfl, e⟩ := e
        refine (step (hb s (by simp))).mpr (ih.mpr ⟨b, p, a, e, hp, fun q hq => hb q (List.mem_cons_of_mem _ hq)⟩)

/-- C18, exactly: reading a specifier panics if and only if one of its comma-separated parts is, apart from white
space, just `<` or just `>`, and every part before that one is by itself a specifier. -/
theorem C18_exact {str : Str} : parseSpecifier str = none ↔
    ∃ before part after, fieldsFunc (fun c => c = ',') str = before ++ part :: after ∧
      (trimSpace part = "<".toList ∨ trimSpace part = ">".toList) ∧
      ∀ p ∈ before, ∃ sp, parseSpecifier p = some (.ok sp) := by
  have e : parseSpecifier str = parseClauses (fieldsFunc (fun c => c = ',') str) := rfl
  rw [e, parseClauses_none]
  constructor <;> rintro ⟨b, p, a, el, hp, hb⟩ <;> refine ⟨b, p, a, el, hp, fun q hq => ?_⟩
  · rw [parse_part (str := str) (by rw [el]; simp [hq])]; exact hb q hq
  · rw [← parse_part (str := str) (by rw [el]; simp [hq])]; exact hb q hq

-- a panic behind a good part; no panic behind a bad one
example : parseSpecifier ">=1.0, <".toList = none ∧ parseSpecifier "oops, <".toList = some (.error ()) := by decide +kernel

end Pep440
