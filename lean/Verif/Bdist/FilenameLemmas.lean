import Verif.Bdist.Filename
import Verif.Go.RegexpLemmas
import Verif.Go.Strings
/-! How the wheel file name expression matches. -/
namespace Bdist
open Go

variable {β : Type}

/-- `[p]+` on a run of `p` characters, when the continuation cannot start with a `p` character -/
theorem first_plus_eq {γ : Type} {p : Char → Bool} {w s : Str} (k : Caps γ → Str → Option β) (hne : w ≠ [])
    (hw : ∀ c ∈ w, p c = true) (h : NotStart p s) (hk' : ∀ c v, p c = true → k [] (c :: v) = none) :
    (Re.plus (Re.chr p) : Re γ).first (w ++ s) k = k [] s := by
  cases hk : k [] s with
  | some x => exact Re.first_plus_run k hne hw h hk
  | none => exact Re.first_plus_fail k hw h hk hk'

theorem first_dash_cons (r : Re FGrp) (s : Str) (k : Caps FGrp → Str → Option β) :
    (reDash r).first ('-' :: s) k = r.first s k := by
  unfold reDash
  rw [Re.first_seq, Re.first_chr_cons, if_pos (by simp [lit])]
  simp

theorem first_dash_none (r : Re FGrp) {c : Char} (s : Str) (k : Caps FGrp → Str → Option β) (h : c ≠ '-') :
    (reDash r).first (c :: s) k = none := by
  unfold reDash
  rw [Re.first_seq, Re.first_chr_cons, if_neg (by simp [lit, h])]

theorem notDash_iff {c : Char} : notDash c = true ↔ c ≠ '-' := by simp [notDash]

/-- a field followed by something that must begin with a dash -/
theorem first_field_dash {g : FGrp} {w s : Str} (r : Re FGrp) (k : Caps FGrp → Str → Option β) (hne : w ≠ [])
    (hw : '-' ∉ w) :
    (reField g).first (w ++ '-' :: s) (fun c t => (reDash r).first t (fun c' t' => k (c ++ c') t')) =
      r.first s (fun c' t' => k ((g, w) :: c') t') := by
  unfold reField
  rw [Re.first_cap, first_plus_eq _ hne]
  · rw [first_dash_cons, take_split (s := w ++ '-' :: s) rfl]
    simp
  · intro c hc; rw [notDash_iff]; rintro rfl; exact hw hc
  · intro c t e; injection e with e _; subst e; rfl
  · intro c v hc; exact first_dash_none r v _ (notDash_iff.mp hc)

theorem first_field {g : FGrp} {w s : Str} (k : Caps FGrp → Str → Option β) (hne : w ≠ []) (hw : '-' ∉ w)
    (hk : ∀ c v cs, c ≠ '-' → k cs (c :: v) = none) :
    (reField g).first (w ++ '-' :: s) k = k [(g, w)] ('-' :: s) := by
  unfold reField
  rw [Re.first_cap, first_plus_eq _ hne]
  · rw [take_split (s := w ++ '-' :: s) rfl]
  · intro c hc; rw [notDash_iff]; rintro rfl; exact hw hc
  · intro c t e; injection e with e _; subst e; rfl
  · intro c v hc; exact hk _ _ _ (notDash_iff.mp hc)

theorem spans_append {p : Char → Bool} {w s : Str} (hw : ∀ c ∈ w, p c = true) :
    ∃ l, spans p (w ++ s) = spans p s ++ l := by
  induction w with
  | nil => exact ⟨[], by simp⟩
  | cons c w ih =>
    obtain ⟨l, e⟩ := ih (fun d hd => hw d (by simp [hd]))
    exact ⟨l ++ [c :: (w ++ s)], by simp [spans, hw c (by simp), e]⟩

/-- continuation of a whole match -/
def kEnd : Caps FGrp → Str → Option (Caps FGrp) := fun c t => if t.isEmpty then some c else none

theorem first_platform {w : Str} (f : Caps FGrp → Caps FGrp) (hne : w ≠ []) (hw : '-' ∉ w) :
    (Re.seq (reField .platform) (.lit lit ".whl".toList)).first (w ++ ".whl".toList) (fun c t => kEnd (f c) t) =
      some (f [(.platform, w)]) := by
  obtain ⟨c, w, rfl⟩ := List.exists_cons_of_ne_nil hne
  have hnd : ∀ d ∈ c :: w, notDash d = true := by
    intro d hd; rw [notDash_iff]; rintro rfl; exact hw hd
  obtain ⟨l, e⟩ := spans_append (p := notDash) (w := w) (s := ".whl".toList) (fun d hd => hnd d (by simp [hd]))
  have e' : spans notDash ".whl".toList = [[], ['l'], ['h', 'l'], ['w', 'h', 'l'], ['.', 'w', 'h', 'l']] := by decide
  unfold reField
  rw [Re.first_seq, Re.first_cap]
  unfold Re.plus
  rw [Re.first_seq, List.cons_append, Re.first_chr_cons, if_pos (hnd c (by simp)), Re.first_star_chr, e, e']
  have tk : (c :: (w ++ ".whl".toList)).take ((c :: (w ++ ".whl".toList)).length - ['.', 'w', 'h', 'l'].length) = c :: w :=
    take_split (by rfl)
  simp only [List.cons_append, List.findSome?_cons]
  simp only [List.length_cons, List.length_nil] at tk
  simp [Re.lit, Re.first_seq, Re.first_chr_nil, Re.first_chr_cons, lit, kEnd]

theorem first_tag {p a l : Str} (f : Caps FGrp → Caps FGrp) (hp : p ≠ [] ∧ '-' ∉ p) (ha : a ≠ [] ∧ '-' ∉ a)
    (hl : l ≠ [] ∧ '-' ∉ l) :
    reTag.first ('-' :: (p ++ '-' :: (a ++ '-' :: (l ++ ".whl".toList)))) (fun c t => kEnd (f c) t) =
      some (f [(.python, p), (.abi, a), (.platform, l)]) := by
  unfold reTag
  rw [first_dash_cons, Re.first_seq, first_field_dash _ (fun c t => kEnd (f c) t) hp.1 hp.2, Re.first_seq,
    first_field_dash _ (fun c t => kEnd (f (_ :: c)) t) ha.1 ha.2,
    first_platform (fun c => f ((FGrp.python, p) :: (FGrp.abi, a) :: c)) hl.1 hl.2]

/-- the tag part does not match at a character other than a dash -/
theorem first_tag_none {c : Char} (s : Str) (k : Caps FGrp → Str → Option β) (h : c ≠ '-') :
    reTag.first (c :: s) k = none := first_dash_none _ s k h

theorem count_run (q : Char) {r : Re FGrp} {s : Str} {p : Caps FGrp × Str} (h : p ∈ r.run s) :
    p.2.count q ≤ s.count q := (Re.run_suffix r s p h).sublist.count_le q

theorem count_dash {r : Re FGrp} {n : Nat} (hr : ∀ s, ∀ p ∈ r.run s, p.2.count '-' + n ≤ s.count '-') {s : Str}
    {p : Caps FGrp × Str} (h : p ∈ (reDash r).run s) : p.2.count '-' + (n + 1) ≤ s.count '-' := by
  unfold reDash at h
  cases s with
  | nil => simp [Re.run] at h
  | cons c s =>
    by_cases hc : c = '-'
    · subst hc
      simp only [Re.run, lit, decide_true, if_true, List.flatMap_cons, List.flatMap_nil, List.append_nil,
        List.nil_append, List.mem_map] at h
      obtain ⟨q, hq, rfl⟩ := h
      have := hr s q hq
      rw [List.count_cons_self]; simp only; omega
    · simp [Re.run, lit, hc] at h

theorem count_seq {a b : Re FGrp} {n : Nat} (hb : ∀ s, ∀ p ∈ b.run s, p.2.count '-' + n ≤ s.count '-') (s : Str)
    (p : Caps FGrp × Str) (h : p ∈ (Re.seq a b).run s) : p.2.count '-' + n ≤ s.count '-' := by
  simp only [Re.run, List.mem_flatMap, List.mem_map] at h
  obtain ⟨q, hq, r, hr, rfl⟩ := h
  have := count_run '-' hq
  have := hb _ r hr
  simp only; omega

/-- matching the tag part uses up three dashes -/
theorem count_tag (s : Str) (p : Caps FGrp × Str) (h : p ∈ reTag.run s) : p.2.count '-' + 3 ≤ s.count '-' := by
  refine count_dash (n := 2) (count_seq ?_) h
  intro s p h
  refine count_dash (n := 1) (count_seq ?_) h
  intro s p h
  exact count_dash (n := 0) (fun s p h => count_run '-' h) h

theorem first_none_of_count {r : Re FGrp} {n : Nat} (hr : ∀ s, ∀ p ∈ r.run s, p.2.count '-' + n ≤ s.count '-') {s : Str}
    (hs : s.count '-' < n) (k : Caps FGrp → Str → Option β) : r.first s k = none := by
  unfold Re.first
  rw [List.findSome?_eq_none_iff]
  intro p hp
  have := hr s p hp
  omega

/-- with three dashes left the build part is skipped -/
theorem first_noBuild {s : Str} (hs : s.count '-' < 4) (f : Caps FGrp → Caps FGrp) :
    (Re.seq (.opt (reDash reBuild)) reTag).first s (fun c t => kEnd (f c) t) =
      reTag.first s (fun c t => kEnd (f c) t) := by
  rw [Re.first_seq, Re.first_opt]
  have : (reDash reBuild).first s (fun c t => reTag.first t (fun c' t' => kEnd (f (c ++ c')) t')) = none := by
    unfold Re.first
    rw [List.findSome?_eq_none_iff]
    intro p hp
    have := count_dash (n := 0) (fun s p h => count_run '-' h) hp
    exact first_none_of_count (n := 3) (s := p.2) count_tag (by omega) (fun c' t' => kEnd (f (p.1 ++ c')) t')
  rw [this]
  simp

theorem first_build {n l s : Str} (hn : n ≠ [] ∧ ∀ c ∈ n, isDig c = true)
    (hl : '-' ∉ l ∧ ∀ c t, l = c :: t → isDig c = false)
    (k : Caps FGrp → Str → Option β) {x : β}
    (hk0 : ∀ c v cs, c ≠ '-' → k cs (c :: v) = none)
    (hk : k ((.buildN, n) :: if l = [] then [] else [(.buildL, l)]) ('-' :: s) = some x) :
    (reDash reBuild).first ('-' :: (n ++ (l ++ '-' :: s))) k = some x := by
  rw [first_dash_cons]
  unfold reBuild
  rw [Re.first_seq, Re.first_cap, first_plus_eq _ hn.1 hn.2]
  · rw [take_split (s := n ++ (l ++ '-' :: s)) rfl]
    cases l with
    | nil =>
      rw [Re.first_opt, Re.first_cap, Re.first_seq]
      simp only [List.nil_append, Re.first_chr_cons]
      rw [if_neg (by decide)]
      simpa using hk
    | cons c l =>
      have hc : c ≠ '-' := by rintro rfl; exact hl.1 (by simp)
      have hc2 : notDashDig c = true := by simp [notDashDig, hc, hl.2 c l rfl]
      apply first_opt_some
      rw [Re.first_cap, Re.first_seq, List.cons_append, Re.first_chr_cons, if_pos hc2, Re.first_star_chr]
      have hnd : ∀ d ∈ l, notDash d = true := by
        intro d hd; rw [notDash_iff]; rintro rfl; exact hl.1 (by simp [hd])
      obtain ⟨r, e, -⟩ := spans_run (p := notDash) (w := l) (s := '-' :: s) hnd
        (by intro c t e; injection e with e _; subst e; rfl)
      rw [e, List.findSome?_cons]
      have tk : (c :: (l ++ '-' :: s)).take ((c :: (l ++ '-' :: s)).length - ('-' :: s).length) = c :: l :=
        take_split (by rfl)
      simp only [tk]
      simp only [reduceCtorEq, if_false] at hk
      simp [hk]
  · intro c t e
    cases l with
    | nil => injection e with e _; subst e; decide
    | cons d l => injection e with e _; subst e; exact hl.2 d l rfl
  · intro c v hc
    have hc' : c ≠ '-' := by rintro rfl; revert hc; decide
    rw [Re.first_opt, Re.first_cap, Re.first_seq, Re.first_chr_cons, if_neg (by simp [notDashDig, hc])]
    simp [hk0 _ _ _ hc']

/-- the text of the build part -/
def buildTxt : Option (Str × Str) → Str
  | some (n, t) => '-' :: (n ++ t)
  | none => []

/-- the captures of the build part -/
def buildCaps : Option (Str × Str) → Caps FGrp
  | some (n, t) => (.buildN, n) :: (if t = [] then [] else [(.buildL, t)])
  | none => []

/-- the text of a wheel file name; `b` the digits and the rest of the build tag -/
def nameText (d v : Str) (b : Option (Str × Str)) (p a l : Str) : Str :=
  d ++ '-' :: (v ++ (buildTxt b ++
    '-' :: (p ++ '-' :: (a ++ '-' :: (l ++ ".whl".toList)))))

/-- a non-empty text without dash -/
def Field (w : Str) : Prop := w ≠ [] ∧ '-' ∉ w

/-- digits, then nothing or something that starts with neither digit nor dash -/
def BuildText (b : Str × Str) : Prop :=
  (b.1 ≠ [] ∧ ∀ c ∈ b.1, isDig c = true) ∧ ('-' ∉ b.2 ∧ ∀ c t, b.2 = c :: t → isDig c = false)

theorem match_nameText {d v : Str} {b : Option (Str × Str)} {p a l : Str} (hd : Field d) (hv : Field v)
    (hb : ∀ x, b = some x → BuildText x) (hp : Field p) (ha : Field a) (hl : Field l) :
    reFilename.matchFull (nameText d v b p a l) = some ((.distribution, d) :: (.version, v) ::
      (buildCaps b ++ [(.python, p), (.abi, a), (.platform, l)])) := by
  rw [Re.matchFull_first]
  show reFilename.first _ kEnd = _
  unfold reFilename nameText
  rw [Re.first_seq, first_field_dash _ (fun c t => kEnd c t) hd.1 hd.2, Re.first_seq]
  have hver : ∀ u, (reField FGrp.version).first (v ++ '-' :: u)
      (fun c t => (Re.seq (.opt (reDash reBuild)) reTag).first t
        (fun c' t' => kEnd ((FGrp.distribution, d) :: (c ++ c')) t')) =
      (Re.seq (.opt (reDash reBuild)) reTag).first ('-' :: u)
      (fun c t => kEnd ((.distribution, d) :: (.version, v) :: c) t) := by
    intro u
    rw [first_field _ hv.1 hv.2]
    · simp
    · intro c v cs hc
      rw [Re.first_seq, Re.first_opt, first_dash_none _ _ _ hc]
      rw [first_tag_none _ _ hc]; rfl
  cases b with
  | none =>
    simp only [buildTxt, buildCaps, List.nil_append]
    rw [hver, first_noBuild _ (fun c => (FGrp.distribution, d) :: (FGrp.version, v) :: c),
      first_tag (fun c => (FGrp.distribution, d) :: (FGrp.version, v) :: c) hp ha hl]
    have c0 : ∀ {w : Str}, '-' ∉ w → w.count '-' = 0 := fun h => List.count_eq_zero.mpr h
    simp only [List.count_cons_self, List.count_append, c0 hp.2, c0 ha.2, c0 hl.2]
    decide
  | some b =>
    obtain ⟨n, t⟩ := b
    have hb := hb _ rfl
    simp only [buildTxt, buildCaps, List.cons_append, List.append_assoc]
    rw [hver, Re.first_seq, Re.first_opt]
    rw [first_build hb.1 hb.2 _ (fun c v cs hc => first_tag_none v _ hc)
      (first_tag (fun c => (FGrp.distribution, d) :: (FGrp.version, v) ::
        (((FGrp.buildN, n) :: if t = [] then [] else [(FGrp.buildL, t)]) ++ c)) hp ha hl)]
    rfl

/-- every text the expression matches has the shape of a wheel file name -/
theorem nameText_of_match {s : Str} {m : Caps FGrp} (h : reFilename.matchFull s = some m) :
    ∃ d v b p a l, Field d ∧ Field v ∧ (∀ x, b = some x → BuildText x) ∧ Field p ∧ Field a ∧ Field l ∧
      s = nameText d v b p a l := by
  have dash : ∀ {r : Re FGrp} {s : Str} {q : Caps FGrp × Str}, q ∈ (reDash r).run s →
      ∃ t, s = '-' :: t ∧ ∃ q' ∈ r.run t, q'.2 = q.2 := by
    intro r s q h
    unfold reDash at h
    cases s with
    | nil => simp [Re.run] at h
    | cons c s =>
      by_cases hc : c = '-'
      · subst hc
        simp only [Re.run, lit, decide_true, if_true, List.flatMap_cons, List.flatMap_nil, List.append_nil,
          List.nil_append, List.mem_map] at h
        obtain ⟨q', hq, rfl⟩ := h
        exact ⟨s, rfl, q', hq, rfl⟩
      · simp [Re.run, lit, hc] at h
  have seq : ∀ {a b : Re FGrp} {s : Str} {q : Caps FGrp × Str}, q ∈ (Re.seq a b).run s →
      ∃ q1 ∈ a.run s, ∃ q2 ∈ b.run q1.2, q2.2 = q.2 := by
    intro a b s q h
    simp only [Re.run, List.mem_flatMap, List.mem_map] at h
    obtain ⟨q1, h1, q2, h2, rfl⟩ := h
    exact ⟨q1, h1, q2, h2, rfl⟩
  have plus : ∀ {p : Char → Bool} {s : Str} {q : Caps FGrp × Str}, q ∈ (Re.plus (Re.chr p)).run s →
      ∃ w, s = w ++ q.2 ∧ w ≠ [] ∧ ∀ c ∈ w, p c = true := by
    intro p s q h
    unfold Re.plus at h
    obtain ⟨q1, h1, q2, h2, e⟩ := seq h
    obtain ⟨w, e2, hw⟩ := Re.run_split _ _ _ h2
    cases s with
    | nil => simp [Re.run] at h1
    | cons c s =>
      by_cases hc : p c = true
      · simp [Re.run, hc] at h1; subst h1
        simp only at e2
        exact ⟨c :: w, by rw [e2, e]; rfl, by simp, by
          intro d hd
          simp only [List.mem_cons] at hd
          rcases hd with rfl | hd
          · exact hc
          · exact hw d hd⟩
      · simp [Re.run, hc] at h1
  have field : ∀ {g : FGrp} {s : Str} {q : Caps FGrp × Str}, q ∈ (reField g).run s →
      ∃ w, s = w ++ q.2 ∧ Field w := by
    intro g s q h
    unfold reField at h
    simp only [Re.run, List.mem_map] at h
    obtain ⟨q', hq, rfl⟩ := h
    obtain ⟨w, e, hne, hw⟩ := plus hq
    exact ⟨w, e, hne, fun hm => notDash_iff.mp (hw _ hm) rfl⟩
  have whl : ∀ {s : Str} {q : Caps FGrp × Str}, q ∈ (Re.lit lit ".whl".toList : Re FGrp).run s →
      s = ".whl".toList ++ q.2 := by
    intro s q h
    have chr : ∀ {x : Char} {s : Str} {q : Caps FGrp × Str}, q ∈ (Re.chr (lit x) : Re FGrp).run s → s = x :: q.2 := by
      intro x s q h
      cases s with
      | nil => simp [Re.run] at h
      | cons c s =>
        by_cases hc : c = x
        · subst hc; simp [Re.run, lit] at h; subst h; rfl
        · simp [Re.run, lit, hc] at h
    have h : q ∈ (Re.seq (.chr (lit '.')) (.seq (.chr (lit 'w')) (.seq (.chr (lit 'h')) (.chr (lit 'l')))) : Re FGrp).run s := h
    obtain ⟨q1, h1, q2, h2, e⟩ := seq h
    obtain ⟨q3, h3, q4, h4, e2⟩ := seq h2
    obtain ⟨q5, h5, q6, h6, e3⟩ := seq h4
    rw [chr h1, chr h3, chr h5, chr h6, e3, e2, e]; rfl
  unfold Re.matchFull at h
  cases hf : (reFilename.run s).find? (fun p => p.2.isEmpty) with
  | none => rw [hf] at h; cases h
  | some q =>
    have hq := List.mem_of_find?_eq_some hf
    have he := List.find?_some hf
    have he : q.2 = [] := by simpa using he
    unfold reFilename at hq
    obtain ⟨q1, h1, q2, h2, e2⟩ := seq hq
    obtain ⟨d, ed, hd⟩ := field h1
    obtain ⟨t2, et2, q3, h3, e3⟩ := dash h2
    obtain ⟨q4, h4, q5, h5, e5⟩ := seq h3
    obtain ⟨v, ev, hv⟩ := field h4
    obtain ⟨q6, h6, q7, h7, e7⟩ := seq h5
    have hb : ∃ b, (∀ x, b = some x → BuildText x) ∧ q4.2 = buildTxt b ++ q6.2 := by
      simp only [Re.run, List.mem_append, List.mem_singleton] at h6
      rcases h6 with h6 | rfl
      · obtain ⟨t, et, r, hr, er⟩ := dash (show q6 ∈ (reDash reBuild).run q4.2 from h6)
        unfold reBuild at hr
        obtain ⟨r1, hr1, r2, hr2, er2⟩ := seq hr
        simp only [Re.run, List.mem_map] at hr1
        obtain ⟨r1', hr1, rfl⟩ := hr1
        obtain ⟨n, en, hn, hn'⟩ := plus hr1
        simp only [Re.run, List.mem_append, List.mem_singleton, List.mem_map] at hr2
        rcases hr2 with ⟨r3, hr3, rfl⟩ | rfl
        · obtain ⟨r4, hr4, r5, hr5, er5⟩ := seq (show r3 ∈ (Re.seq (.chr notDashDig) (.star (.chr notDash)) : Re FGrp).run r1'.2 from hr3)
          cases hx : r1'.2 with
          | nil => rw [hx] at hr4; simp [Re.run] at hr4
          | cons c u =>
            rw [hx] at hr4
            by_cases hc : notDashDig c = true
            · simp [Re.run, hc] at hr4; subst hr4
              obtain ⟨w, ew, hw⟩ := Re.run_split _ _ _ hr5
              simp only at ew
              refine ⟨some (n, c :: w), ?_, ?_⟩
              · rintro x rfl'
                injection rfl' with rfl'; subst rfl'
                refine ⟨⟨hn, hn'⟩, ?_, ?_⟩
                · simp only [notDashDig, Bool.and_eq_true, bne_iff_ne, ne_eq] at hc
                  simp only [List.mem_cons, not_or]
                  exact ⟨fun e => hc.1 e.symm, fun hm => by simpa [Re.accepts, notDash] using hw _ hm⟩
                · intro c' t' e; injection e with e _; subst e
                  simp only [notDashDig, Bool.and_eq_true, Bool.not_eq_true'] at hc
                  exact hc.2
              · simp only [buildTxt]
                rw [et, en, hx, ew, er5]
                simp only at er2
                rw [← er, ← er2]
                simp
            · simp [Re.run, hc] at hr4
        · refine ⟨some (n, []), ?_, ?_⟩
          · rintro x rfl'
            injection rfl' with rfl'; subst rfl'
            exact ⟨⟨hn, hn'⟩, by simp, by simp⟩
          · simp only [buildTxt]
            simp only at er2
            rw [et, en, ← er, ← er2]
            simp
      · exact ⟨none, by simp, by simp [buildTxt]⟩
    obtain ⟨b, hb, eb⟩ := hb
    unfold reTag at h7
    obtain ⟨t7, et7, q8, h8, e8⟩ := dash h7
    obtain ⟨q9, h9, q10, h10, e10⟩ := seq h8
    obtain ⟨p, ep, hp⟩ := field h9
    obtain ⟨t11, et11, q12, h12, e12⟩ := dash h10
    obtain ⟨q13, h13, q14, h14, e14⟩ := seq h12
    obtain ⟨a, ea, ha⟩ := field h13
    obtain ⟨t15, et15, q16, h16, e16⟩ := dash h14
    obtain ⟨q17, h17, q18, h18, e18⟩ := seq h16
    obtain ⟨l, el, hl⟩ := field h17
    have ew := whl h18
    have hz : q18.2 = [] := by rw [e18, e16, e14, e12, e10, e8, e7, e5, e3, e2, he]
    refine ⟨d, v, b, p, a, l, hd, hv, hb, hp, ha, hl, ?_⟩
    unfold nameText
    rw [ed, et2, ev, eb, et7, ep, et11, ea, et15, el, ew, hz, List.append_nil]

end Bdist
