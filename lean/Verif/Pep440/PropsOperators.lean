import Verif.Pep440.PropsWide
import Verif.Pep440.PropsSpecParse
import Verif.Pep440.PropsExact
/-! C16 and C17, exactly: which versions may stand directly behind `<` and `>`, and which specifiers print to a text
that is read back. -/
namespace Pep440
open Go Spec

/-! ### the first number of a text -/

/-- neither digit nor blank nor `v` -/
def stopC (c : Char) : Bool := isDig c || reSpace c || c = 'v' || c = 'V'

theorem Pieces.rest0_stop {p : Pieces} (h : p.Ok) : NotStart stopC p.rest0 := by
  unfold Pieces.rest0 Pieces.tPre
  split
  · exact (Pieces.rest1_ok h).notStart (by decide)
  · rename_i y hy
    have ok := h.pre y hy
    obtain ⟨s1, l, s2, d⟩ := y
    have hs : Sep s1 := ok.s1
    rcases spell_cases ok.w with e | e | e | e | e | e | e | e <;>
    · dsimp only at e
      subst e
      rcases hs with rfl | rfl | rfl | rfl <;> exact notStart_cons (by decide)

/-- a text of pieces starts with a number, the epoch or the first of the release -/
theorem Pieces.first {p : Pieces} (h : p.Ok) : ∃ e t, p.text = e ++ t ∧ Digits e ∧ NotStart stopC t ∧
    (t.head? = some '!' ∧ p.val.epoch = numOf e ∨
      t.head? ≠ some '!' ∧ p.val.epoch = 0 ∧ p.val.release.head? = some (numOf e)) := by
  cases he : p.ep with
  | some d =>
    exact ⟨d, '!' :: p.relPart, by simp [Pieces.text, Pieces.tEp, he], h.ep d he, notStart_cons (by decide),
      Or.inl ⟨rfl, by simp [Pieces.val, he]⟩⟩
  | none =>
    refine ⟨p.r0, relTxt p.rs ++ p.rest0, by simp [Pieces.text, Pieces.tEp, he, Pieces.relPart], h.r0, ?_,
      Or.inr ⟨?_, by simp [Pieces.val, he], by simp [Pieces.val]⟩⟩
    · cases p.rs with
      | nil => exact Pieces.rest0_stop h
      | cons d ds => exact notStart_cons (by decide)
    · cases p.rs with
      | nil =>
        intro e
        have hr := (Pieces.rest0_ok h).2
        change p.rest0.head? = some '!' at e
        cases hx : p.rest0 with
        | nil => rw [hx] at e; cases e
        | cons c t =>
          rw [hx] at e
          simp at e
          subst e
          have := hr _ _ hx
          revert this; decide
      | cons d ds => simp [relTxt]

/-- a text that is read: blanks, perhaps `v`, pieces, blanks -/
theorem read_pieces {s : Str} {v : Ver} (h : parseVersion s = .ok v) (h1 : '\u017f' ∉ s) (h2 : '\u212a' ∉ s) :
    ∃ a body b vv p, s = a ++ body ++ b ∧ (∀ c ∈ a, reSpace c = true) ∧ (∀ c ∈ b, reSpace c = true) ∧
      body.map asciiLower = (vv ++ Pieces.text p).map asciiLower ∧ (vv = [] ∨ vv = ['v']) ∧ p.Ok ∧ p.Greedy ∧
      v = { p.val with loc := v.loc } := by
  obtain ⟨w, ⟨a, body, b, t, e, ha, hb, hsame, hsays⟩, -, -, hv⟩ := (C106_wide_partial s h1 h2).1 v h
  obtain ⟨vv, p, rfl, hvv, ok, hg, rfl⟩ := says_iff.1 hsays
  exact ⟨a, body, b, vv, p, e, blank_iff.1 ha, blank_iff.1 hb, hsame, hvv, ok, hg, hv⟩

theorem dig_lower {c d : Char} (h : asciiLower c = asciiLower d) (hd : isDig d = true) : c = d := by
  have := lower_digits (u := [c]) (d := [d]) (by simp [h]) (by simp [hd])
  simpa using this

theorem v_lower {c : Char} (h : asciiLower c = asciiLower 'v') : c = 'v' ∨ c = 'V' := by
  by_cases hc : 65 ≤ c.toNat ∧ c.toNat ≤ 90
  · right
    have hx : (asciiLower c).toNat = 118 := by rw [h]; decide
    unfold asciiLower at hx
    rw [if_pos hc, ofNat_toNat32 hc] at hx
    have : c.toNat = 'V'.toNat := by change c.toNat = 86; omega
    exact Char.toNat_inj.1 this
  · left
    rw [asciiLower_lower hc] at h
    rw [h]; decide

theorem stop_lower {x y : Char} (h : asciiLower x = asciiLower y) (hy : stopC y = false) : stopC x = false := by
  cases hx : stopC x with
  | false => rfl
  | true =>
    exfalso
    simp only [stopC, Bool.or_eq_true, decide_eq_true_eq] at hx
    rcases hx with ((hx | hx) | hx) | hx
    · have := dig_lower h.symm hx
      subst this; simp [stopC, hx] at hy
    · have : y = x := by
        have hb : x = '\t' ∨ x = '\n' ∨ x = '\x0c' ∨ x = '\r' ∨ x = ' ' := by
          simpa [reSpace, or_assoc] using hx
        have hl : asciiLower x = x := by rcases hb with rfl | rfl | rfl | rfl | rfl <;> decide
        rw [hl] at h
        refine lower_eq h.symm ?_
        rcases hb with rfl | rfl | rfl | rfl | rfl <;> decide
      subst this; simp [stopC, hx] at hy
    · subst hx
      rcases v_lower h.symm with rfl | rfl <;> revert hy <;> decide
    · subst hx
      have : asciiLower y = asciiLower 'v' := by rw [← h]; decide
      rcases v_lower this with rfl | rfl <;> revert hy <;> decide

theorem space_not {c d : Char} (h : asciiLower c = asciiLower d) (hd : isDig d = true ∨ d = 'v') : reSpace c = false := by
  cases hc : reSpace c with
  | false => rfl
  | true =>
    have hb : c = '\t' ∨ c = '\n' ∨ c = '\x0c' ∨ c = '\r' ∨ c = ' ' := by simpa [reSpace, or_assoc] using hc
    rcases hd with hd | rfl
    · have := dig_lower h hd
      subst this
      exfalso
      rcases hb with rfl | rfl | rfl | rfl | rfl <;> revert hd <;> decide
    · rcases v_lower h with rfl | rfl <;> revert hc <;> decide

/-- a text that is read is not all blank, and starts with a blank, with `v`, or with a digit; if with a digit, its first
number is the epoch or the first of the release -/
theorem read_first {s : Str} {v : Ver} (h : parseVersion s = .ok v) (h1 : '\u017f' ∉ s) (h2 : '\u212a' ∉ s) :
    (∃ c ∈ s, reSpace c = false) ∧
    ∃ c r, s = c :: r ∧ (reSpace c = true ∨ ((c = 'v' ∨ c = 'V') ∧ ∃ d t, r = d :: t ∧ isDig d = true) ∨
      isDig c = true ∧
      (∃ e t b, s = e ++ (t ++ b) ∧ Digits e ∧ NotStart stopC t ∧ (∀ c ∈ b, reSpace c = true) ∧
        ((t ++ b).head? = some '!' ∧ v.epoch = numOf e ∨
          (t ++ b).head? ≠ some '!' ∧ v.epoch = 0 ∧ v.release.head? = some (numOf e))) ∧
      ∃ body b p, s = body ++ b ∧ (∀ c ∈ b, reSpace c = true) ∧ body.map asciiLower = (Pieces.text p).map asciiLower ∧
        p.Ok ∧ p.Greedy) := by
  obtain ⟨a, body, b, vv, p, rfl, ha, hb, hsame, hvv, ok, hg, hv⟩ := read_pieces h h1 h2
  obtain ⟨x, pt, hpt, hx⟩ := Pieces.text_digit ok
  obtain ⟨y, q, hy, hq⟩ : ∃ y q, body = y :: q ∧ reSpace y = false := by
    cases body with
    | nil => rcases hvv with rfl | rfl <;> simp [hpt] at hsame
    | cons y q =>
      refine ⟨y, q, rfl, ?_⟩
      rcases hvv with rfl | rfl
      · rw [hpt] at hsame
        simp only [List.nil_append, List.map_cons, List.cons.injEq] at hsame
        exact space_not hsame.1 (Or.inl hx)
      · simp only [List.cons_append, List.map_cons, List.cons.injEq] at hsame
        exact space_not hsame.1 (Or.inr rfl)
  refine ⟨⟨y, by simp [hy], hq⟩, ?_⟩
  cases a with
  | cons c a => exact ⟨c, a ++ body ++ b, rfl, Or.inl (ha c (by simp))⟩
  | nil =>
    refine ⟨y, q ++ b, by simp [hy], Or.inr ?_⟩
    rcases hvv with rfl | rfl
    · right
      have hyx : y = x := by
        rw [hy, hpt] at hsame
        simp only [List.nil_append, List.map_cons, List.cons.injEq] at hsame
        exact dig_lower hsame.1 hx
      refine ⟨hyx ▸ hx, ?_, body, b, p, by simp, hb, by simpa using hsame, ok, hg⟩
      obtain ⟨e, t, ht, he, hs, hn⟩ := Pieces.first ok
      rw [List.nil_append, ht, List.map_append, List.map_eq_append_iff] at hsame
      obtain ⟨e', t', rfl, hee, htt⟩ := hsame
      have : e' = e := lower_digits hee he.2
      subst this
      refine ⟨e', t', b, by simp, he, ?_, hb, ?_⟩
      · intro c r hc
        rw [hc] at htt
        cases t with
        | nil => cases htt
        | cons d r' =>
          simp only [List.map_cons, List.cons.injEq] at htt
          exact stop_lower htt.1 (hs d r' rfl)
      · have hbang : (t' ++ b).head? = some '!' ↔ t.head? = some '!' := by
          cases t with
          | nil =>
            have : t' = [] := by simpa using htt
            subst this
            cases b with
            | nil => simp
            | cons z b =>
              simp
              intro e
              have := hb z (by simp)
              rw [e] at this
              revert this; decide
          | cons d r' =>
            cases t' with
            | nil => cases htt
            | cons c r =>
              simp only [List.map_cons, List.cons.injEq] at htt
              simp only [List.cons_append, List.head?_cons, Option.some.injEq]
              constructor
              · rintro rfl
                exact lower_eq htt.1.symm (by decide)
              · rintro rfl
                exact lower_eq htt.1 (by decide)
        rw [hbang, show v.toPubVer = p.val.toPubVer by rw [hv]]
        rcases hn with hn | hn
        · exact Or.inl hn
        · exact Or.inr ⟨fun hx => hn.1 (hbang.1 hx), hn.2⟩
    · left
      rw [hy] at hsame
      simp only [List.cons_append, List.nil_append, List.map_cons, List.cons.injEq] at hsame
      refine ⟨v_lower hsame.1, ?_⟩
      rw [hpt] at hsame
      cases q with
      | nil => simp at hsame
      | cons d q =>
        simp only [List.map_cons, List.cons.injEq] at hsame
        exact ⟨d, q ++ b, rfl, (dig_lower hsame.2.1 hx) ▸ hx⟩

/-- a leading zero may be left out -/
theorem Pieces.drop0 {p : Pieces} (ok : p.Ok) (hg : p.Greedy) {d : Char} {t : Str} (e : p.text = '0' :: d :: t)
    (hd : isDig d = true) : ∃ q : Pieces, q.Ok ∧ q.Greedy ∧ q.text = d :: t ∧ q.val = p.val ∧ q.loc = p.loc := by
  have num0 : ∀ x : Str, numOf ('0' :: x) = numOf x := by intro x; rfl
  have cut : ∀ (w r : Str), Digits w → NotStart isDig r → w ++ r = '0' :: d :: t →
      ∃ w', w = '0' :: w' ∧ Digits w' ∧ w' ++ r = d :: t := by
    intro w r hw hr e
    cases w with
    | nil => exact absurd rfl hw.1
    | cons c w =>
      simp only [List.cons_append, List.cons.injEq] at e
      obtain ⟨rfl, e⟩ := e
      refine ⟨w, rfl, ⟨?_, fun c hc => hw.2 c (by simp [hc])⟩, e⟩
      rintro rfl
      have := hr d t e
      rw [hd] at this; cases this
  cases he : p.ep with
  | some w =>
    have e' : w ++ ('!' :: p.relPart) = '0' :: d :: t := by rw [← e]; simp [Pieces.text, Pieces.tEp, he]
    obtain ⟨w', rfl, hw', e''⟩ := cut _ _ (ok.ep w he) (notStart_cons (by decide)) e'
    refine ⟨{ p with ep := some w' }, ⟨by rintro _ ⟨⟩; exact hw', ok.r0, ok.rs, ok.pre, ok.post1, ok.post2, ok.dev, ok.loc⟩,
      hg, ?_, ?_, rfl⟩
    · rw [← e'']; simp [Pieces.text, Pieces.tEp]; rfl
    · simp [Pieces.val, he, num0]
  | none =>
    have e' : p.r0 ++ (relTxt p.rs ++ p.rest0) = '0' :: d :: t := by
      rw [← e]; simp [Pieces.text, Pieces.tEp, he, Pieces.relPart]
    obtain ⟨w', hr0, hw', e''⟩ := cut _ _ ok.r0 (relTxt_notDig (Pieces.rest0_ok ok).1) e'
    refine ⟨{ p with r0 := w' }, ⟨ok.ep, hw', ok.rs, ok.pre, ok.post1, ok.post2, ok.dev, ok.loc⟩,
      hg, ?_, ?_, rfl⟩
    · rw [← e'']; simp [Pieces.text, Pieces.tEp, he, Pieces.relPart]; rfl
    · simp [Pieces.val, hr0, num0]

/-- what is read depends only on what the pieces say -/
theorem parse_same {p q : Pieces} (op : p.Ok) (gp : p.Greedy) (oq : q.Ok) (gq : q.Greedy) (hv : q.val = p.val)
    (hl : q.loc = p.loc) : parseVersion q.text = parseVersion p.text := by
  obtain ⟨p', op', np', tp, lp, vp⟩ := Pieces.normal op
  obtain ⟨q', oq', nq', tq, lq, vq⟩ := Pieces.normal oq
  have hp := Pieces.parse_pieces_kept op' np'
  have hq := Pieces.parse_pieces_kept oq' nq'
  have hk : q'.kept = p'.kept := by unfold Pieces.kept; rw [lq, lp, hl]
  rw [vp gp, tp] at hp
  rw [vq gq, tq, hv, hk] at hq
  by_cases hf : Fits p.val
  · rw [hp.1 hf, hq.1 hf]
  · rw [hp.2 hf, hq.2 hf]

theorem digitsVal_cons (c : Char) (e : Str) : digitsVal (c :: e) = digVal c * 10 ^ e.length + digitsVal e := by
  have := digitsVal_append [c] e
  simpa [digitsVal] using this

/-- leaving out the first digit: there are further digits, and the number without the first digit takes the place of
the number -/
theorem drop_digit {c : Char} {r : Str} {v w : Ver} (h : parseVersion (c :: r) = .ok v) (h1 : '\u017f' ∉ c :: r)
    (h2 : '\u212a' ∉ c :: r) (hc : isDig c = true) (hr : parseVersion r = .ok w) :
    ∃ d e r', r = d :: r' ∧ isDig d = true ∧
      (v.epoch = numOf (c :: d :: e) ∧ w.epoch = numOf (d :: e) ∨
        v.epoch = 0 ∧ w.epoch = 0 ∧ v.release.head? = some (numOf (c :: d :: e)) ∧ w.release.head? = some (numOf (d :: e))) := by
  have h1' : '\u017f' ∉ r := fun hm => h1 (by simp [hm])
  have h2' : '\u212a' ∉ r := fun hm => h2 (by simp [hm])
  obtain ⟨-, c', r', e, hc'⟩ := read_first h h1 h2
  cases e
  rcases hc' with hc' | ⟨hc', -⟩ | ⟨-, ⟨e, t, b, es, he, hs, hb, hn⟩, -⟩
  · have := space_not (c := c) rfl (Or.inl hc); simp_all
  · exfalso; rcases hc' with rfl | rfl <;> revert hc <;> decide
  · cases e with
    | nil => exact absurd rfl he.1
    | cons c' e =>
      simp only [List.cons_append, List.cons.injEq] at es
      obtain ⟨rfl, es⟩ := es
      obtain ⟨⟨z, hz, hz'⟩, d, r', e1, hd⟩ := read_first hr h1' h2'
      have hd' : stopC d = true := by
        rcases hd with hd | ⟨rfl | rfl, -⟩ | ⟨hd, -⟩
        · simp [stopC, hd]
        · decide
        · decide
        · simp [stopC, hd]
      cases e with
      | nil =>
        exfalso
        simp only [List.nil_append] at es
        cases t with
        | nil =>
          rw [es, List.nil_append] at hz
          rw [hb z hz] at hz'; cases hz'
        | cons x t =>
          have hx := hs x t rfl
          rw [e1, List.cons_append, List.cons.injEq] at es
          rw [es.1, hx] at hd'; cases hd'
      | cons x e =>
        have hx : isDig x = true := he.2 x (by simp)
        rw [e1, List.cons_append, List.cons.injEq] at es
        obtain ⟨rfl, es⟩ := es
        refine ⟨d, e, r', e1, hx, ?_⟩
        have hx' := isDig_iff.1 hx
        rcases hd with hd | ⟨hd, -⟩ | ⟨-, ⟨e', t', b', es', he', hs', hb', hn'⟩, -⟩
        · have hb : d = '\t' ∨ d = '\n' ∨ d = '\x0c' ∨ d = '\r' ∨ d = ' ' := by simpa [reSpace, or_assoc] using hd
          exfalso
          rcases hb with rfl | rfl | rfl | rfl | rfl <;> revert hx <;> decide
        · exfalso
          rcases hd with rfl | rfl <;> revert hx <;> decide
        · have nd : ∀ {t b : Str}, NotStart stopC t → (∀ c ∈ b, reSpace c = true) → NotStart isDig (t ++ b) := by
            intro t b ht hb c r hc
            cases t with
            | nil =>
              have := hb c (by simp at hc; simp [hc])
              cases hd : isDig c with
              | false => rfl
              | true =>
                have := space_not (c := c) rfl (Or.inl hd)
                simp_all
            | cons x t =>
              simp only [List.cons_append, List.cons.injEq] at hc
              have := ht x t rfl
              rw [hc.1] at this
              simp only [stopC, Bool.or_eq_false_iff] at this
              exact this.1.1.1
          have uniq : ∀ {e e' u u' : Str}, (∀ c ∈ e, isDig c = true) → (∀ c ∈ e', isDig c = true) → NotStart isDig u →
              NotStart isDig u' → e ++ u = e' ++ u' → e = e' ∧ u = u' := by
            intro e
            induction e with
            | nil =>
              intro e' u u' _ h' hu hu' h
              cases e' with
              | nil => exact ⟨rfl, h⟩
              | cons c e' =>
                have := hu c (e' ++ u') h
                rw [h' c (by simp)] at this; cases this
            | cons c e ih =>
              intro e' u u' he h' hu hu' h
              cases e' with
              | nil =>
                have := hu' c (e ++ u) h.symm
                rw [he c (by simp)] at this; cases this
              | cons c' e' =>
                simp only [List.cons_append, List.cons.injEq] at h
                obtain ⟨rfl, h⟩ := h
                obtain ⟨rfl, rfl⟩ := ih (fun c hc => he c (by simp [hc])) (fun c hc => h' c (by simp [hc])) hu hu' h
                exact ⟨rfl, rfl⟩
          have hu := uniq (e := d :: e) (e' := e') (u := t ++ b) (u' := t' ++ b') (fun c hc => he.2 c (by simp_all))
            he'.2 (nd hs hb) (nd hs' hb') (by rw [List.cons_append, ← es, ← e1, es'])
          obtain ⟨rfl, hu⟩ := hu
          rw [← hu] at hn'
          rcases hn with ⟨a1, a2⟩ | ⟨a1, a2⟩ <;> rcases hn' with ⟨b1, b2⟩ | ⟨b1, b2⟩
          · exact Or.inl ⟨a2, b2⟩
          · exact absurd a1 b1
          · exact absurd b1 a1
          · exact Or.inr ⟨a2.1, b2.1, a2.2, b2.2⟩

/-- leaving out the first character -/
theorem drop_first {c : Char} {r : Str} {v : Ver} (h : parseVersion (c :: r) = .ok v) (h1 : '\u017f' ∉ c :: r)
    (h2 : '\u212a' ∉ c :: r) : c.toNat < 128 ∧
    (parseVersion r = .ok v ↔ reSpace c = true ∨ c = 'v' ∨ c = 'V' ∨ c = '0' ∧ ∃ d t, r = d :: t ∧ isDig d = true) := by
  have h1' : '\u017f' ∉ r := fun hm => h1 (by simp [hm])
  have h2' : '\u212a' ∉ r := fun hm => h2 (by simp [hm])
  obtain ⟨-, c', r', e, hc⟩ := read_first h h1 h2
  cases e
  rcases hc with hc | ⟨hc, d, t, rfl, hd⟩ | ⟨hc, ⟨e, t, b, es, he, hs, hb, hn⟩, body, b', p, eb, hb', hsame, ok, hg⟩
  · refine ⟨?_, fun _ => Or.inl hc, fun _ => ?_⟩
    · have hb : c = '\t' ∨ c = '\n' ∨ c = '\x0c' ∨ c = '\r' ∨ c = ' ' := by simpa [reSpace, or_assoc] using hc
      rcases hb with rfl | rfl | rfl | rfl | rfl <;> decide
    · have := parse_blank (a := [c]) (s := r) (b := []) (by simpa using hc) (by simp)
      rw [← h, ← this]; simp
  · refine ⟨by rcases hc with rfl | rfl <;> decide, fun _ => by rcases hc with rfl | rfl <;> simp, fun _ => ?_⟩
    rw [← h, parse_v rfl hd hc]
  · have hcd := isDig_iff.1 hc
    refine ⟨by omega, fun hr => ?_, fun hr => ?_⟩
    · right; right; right
      obtain ⟨d, e', r', e1, hd, hx⟩ := drop_digit h h1 h2 hc hr
      refine ⟨?_, d, r', e1, hd⟩
      have hnum : numOf (c :: d :: e') = numOf (d :: e') := by
        rcases hx with ⟨a, b⟩ | ⟨-, -, a, b⟩
        · rw [← a, ← b]
        · rw [a] at b; injection b
      unfold numOf at hnum
      rw [digitsVal_cons] at hnum
      have hz : digVal c = 0 := by
        rcases Nat.eq_zero_or_pos (digVal c) with hz | hz
        · exact hz
        · have : 0 < digVal c * 10 ^ (d :: e').length := Nat.mul_pos hz (Nat.pow_pos (by decide))
          omega
      have hc48 : c.toNat = '0'.toNat := by
        unfold digVal at hz
        change c.toNat - 48 = 0 at hz
        change c.toNat = 48
        omega
      exact Char.toNat_inj.1 hc48
    · rcases hr with hr | rfl | rfl | ⟨rfl, d, t', rfl, hd⟩
      · have := space_not (c := c) rfl (Or.inl hc); simp_all
      · exact absurd hc (by decide)
      · exact absurd hc (by decide)
      · obtain ⟨x, pt, hpt, hx⟩ := Pieces.text_digit ok
        cases body with
        | nil => rw [hpt] at hsame; cases hsame
        | cons y body =>
          simp only [List.cons_append, List.cons.injEq] at eb
          obtain ⟨rfl, eb⟩ := eb
          cases body with
          | nil =>
            exfalso
            have := hb' d (by simp at eb; simp [← eb])
            have := space_not (c := d) rfl (Or.inl hd); simp_all
          | cons y body =>
            simp only [List.cons_append, List.cons.injEq] at eb
            obtain ⟨rfl, rfl⟩ := eb
            rw [hpt] at hsame
            cases pt with
            | nil => simp at hsame
            | cons z pt =>
              simp only [List.map_cons, List.cons.injEq] at hsame
              have hx0 : x = '0' := (dig_lower hsame.1 hx).symm
              have hzd : z = d := dig_lower hsame.2.1.symm hd
              subst hx0 hzd
              obtain ⟨q, oq, gq, tq, vq, lq⟩ := Pieces.drop0 ok hg hpt hd
              have key := parse_same ok hg oq gq vq lq
              have r1 : parseVersion (z :: body ++ b') = parseVersion q.text := by
                have := parse_blank (a := []) (s := z :: body) (b := b') (by simp) hb'
                rw [List.nil_append] at this
                rw [this, ← parse_case (z :: body), tq, ← parse_case (z :: pt)]
                simp [hsame.2.2]
              have r2 : parseVersion ('0' :: z :: body ++ b') = parseVersion p.text := by
                have := parse_blank (a := []) (s := '0' :: z :: body) (b := b') (by simp) hb'
                rw [List.nil_append] at this
                rw [this, ← parse_case ('0' :: z :: body), hpt, ← parse_case ('0' :: z :: pt)]
                simp [hsame.2.2]
              rw [← List.cons_append, r1, key, ← r2]
              simpa using h

/-! ### C16 -/

/-- the text behind `<` or `>`, after trimming -/
theorem splitOp_short {op : CmpOp} {o : Str} (ho : (op, o) ∈ [(CmpOp.lt, "<".toList), (.gt, ">".toList)]) {c : Char} {r : Str}
    (hc : c.toNat < 128) (he : c ≠ '=') : splitOp (o ++ c :: r) = some (.ok (op, r, 1, true, false)) := by
  simp only [List.mem_cons, Prod.mk.injEq, List.not_mem_nil, or_false] at ho
  rcases ho with ⟨rfl, rfl⟩ | ⟨rfl, rfl⟩ <;>
    simp [splitOp, hasPrefix, List.isPrefixOf, dropByte, hc, Ne.symm he]

theorem short_chars {op : CmpOp} {o : Str} (ho : (op, o) ∈ [(CmpOp.lt, "<".toList), (.gt, ">".toList)]) :
    o ≠ [] ∧ ∀ c ∈ o, isSpace c = false ∧ c ≠ ',' := by
  simp only [List.mem_cons, Prod.mk.injEq, List.not_mem_nil, or_false] at ho
  rcases ho with ⟨rfl, rfl⟩ | ⟨rfl, rfl⟩ <;> decide

/-- a clause with `<` or `>` directly before a text `c :: r` without blanks at its end -/
theorem clause_short {op : CmpOp} {o : Str} (ho : (op, o) ∈ [(CmpOp.lt, "<".toList), (.gt, ">".toList)]) {c : Char} {r : Str}
    (hc : c.toNat < 128) (he : c ≠ '=') (ht : rtrim (c :: r) = c :: r) {v : Ver} (hl : v.loc = []) :
    parseClause (trimSpace (o ++ c :: r)) = some (.ok ⟨op, v⟩) ↔ parseVersion r = .ok v := by
  have hs := short_chars ho
  have ht' : trimSpace (o ++ c :: r) = o ++ c :: r := by rw [trimSpace_op hs.1 (fun c hc => (hs.2 c hc).1), ht]
  unfold parseClause
  rw [ht', ht', splitOp_short ho hc he]
  cases hp : parseVersion r with
  | error e => simp [hp]
  | ok w =>
    simp only [hp]
    have hw := (parsed_shape hp).release
    have hlen : ¬ w.release.length < 1 := by
      intro h; exact hw (List.length_eq_zero_iff.1 (by omega))
    rw [if_neg hlen]
    simp only [Bool.not_true, Bool.and_false, Bool.not_false, and_true, Bool.false_eq_true, if_false]
    by_cases h0 : w.loc.length > 0
    · rw [if_pos h0]
      constructor
      · intro h; cases h
      · intro h; cases h; rw [hl] at h0; simp at h0
    · rw [if_neg h0]
      constructor
      · intro h; cases h; rfl
      · intro h; cases h; rfl

/-- C16, exactly, for `<` and `>` directly before a version text without U+017F and U+212A: the clause is the one written if and only if
the text starts with a blank, with `v` or `V`, or with a zero that another digit follows.  (The code skips one character
too many.) -/
theorem C16_exact_partial {ver : Str} {v : Ver} (h : parseVersion ver = .ok v) (hl : v.loc = []) (h1 : '\u017f' ∉ ver)
    (h2 : '\u212a' ∉ ver) {op : CmpOp} {o : Str} (ho : (op, o) ∈ [(CmpOp.lt, "<".toList), (.gt, ">".toList)]) :
    parseSpecifier (o ++ ver) = some (.ok [⟨op, v⟩]) ↔
      (∃ c r, ver = c :: r ∧ c ∈ ['\t', '\n', '\x0c', '\r', ' ', 'v', 'V']) ∨
      (∃ d r, ver = '0' :: d :: r ∧ d ∈ "0123456789".toList) := by
  have hs := short_chars ho
  obtain ⟨b, eb, hb⟩ := rtrim_split ver
  have hp := parse_rtrim h
  have m1 : '\u017f' ∉ rtrim ver := fun hm => h1 (rtrim_sub _ hm)
  have m2 : '\u212a' ∉ rtrim ver := fun hm => h2 (rtrim_sub _ hm)
  obtain ⟨-, c, r, e, -⟩ := read_first hp m1 m2
  have hcm : c ∈ ver := rtrim_sub c (by simp [e])
  have hce : c ≠ '=' := fun hx => acc_not h (c := '=') (by decide +kernel) (hx ▸ hcm)
  rw [e] at hp m1 m2
  obtain ⟨hc, hd⟩ := drop_first hp m1 m2
  have ht : trimSpace (o ++ ver) = o ++ c :: r := by rw [trimSpace_op hs.1 (fun c hc => (hs.2 c hc).1), e]
  have ht2 : rtrim (c :: r) = c :: r := by rw [← e, rtrim_idem]
  have step : parseSpecifier (o ++ ver) = some (.ok [⟨op, v⟩]) ↔ parseClause (trimSpace (o ++ c :: r)) = some (.ok ⟨op, v⟩) := by
    unfold parseSpecifier
    rw [fieldsFunc_none (by simp [hs.1]) (by
      intro x hx
      rw [decide_eq_false_iff_not]
      rintro rfl
      rcases List.mem_append.1 hx with hx | hx
      · exact (hs.2 _ hx).2 rfl
      · exact acc_not h (by decide +kernel) hx)]
    have ht3 : trimSpace (o ++ c :: r) = o ++ c :: r := by rw [← ht, trimSpace_idem]
    simp only [parseClauses, ht, ht3]
    rw [if_neg (by simp)]
    generalize parseClause (o ++ c :: r) = z
    rcases z with _ | _ | c' <;> simp
  rw [step, clause_short ho hc hce ht2 hl, hd]
  have ever : ver = c :: (r ++ b) := by rw [eb, e]; rfl
  constructor
  · rintro (hx | hx | hx | ⟨rfl, d, t, rfl, hdd⟩)
    · exact Or.inl ⟨c, _, ever, by
        have hb : c = '\t' ∨ c = '\n' ∨ c = '\x0c' ∨ c = '\r' ∨ c = ' ' := by simpa [reSpace, or_assoc] using hx
        rcases hb with rfl | rfl | rfl | rfl | rfl <;> decide⟩
    · exact Or.inl ⟨c, _, ever, by simp [hx]⟩
    · exact Or.inl ⟨c, _, ever, by simp [hx]⟩
    · exact Or.inr ⟨d, t ++ b, by rw [ever]; simp, dig_mem.1 hdd⟩
  · rintro (⟨c', r', e', hx⟩ | ⟨d, r', e', hx⟩)
    · rw [ever] at e'
      injection e' with e1 e2
      subst e1
      simp only [List.mem_cons, List.not_mem_nil, or_false] at hx
      rcases hx with rfl | rfl | rfl | rfl | rfl | rfl | rfl <;> first | exact Or.inl (by decide) | simp
    · rw [ever] at e'
      injection e' with e1 e2
      right; right; right
      refine ⟨e1, ?_⟩
      cases r with
      | nil =>
        exfalso
        have hdb := hb d (by simp at e2; simp [e2])
        have hdd := isDig_iff.1 (dig_mem.2 hx)
        have key : ∀ n : Fin 58, 48 ≤ n.val → isSpace (Char.ofNat n.val) = false := by decide
        have := key ⟨d.toNat, by omega⟩ hdd.1
        simp [Char.ofNat_toNat, hdb] at this
      | cons x r =>
        simp at e2
        exact ⟨x, r, rfl, dig_mem.2 (e2.1 ▸ hx)⟩

-- one that comes out right and one that does not
example : parseSpecifier "<v1.0".toList =
      some (.ok [⟨.lt, { epoch := 0, release := [1, 0], pre := none, post := none, dev := none, loc := [] }⟩]) ∧
    parseSpecifier ">010".toList =
      some (.ok [⟨.gt, { epoch := 0, release := [10], pre := none, post := none, dev := none, loc := [] }⟩]) ∧
    parseSpecifier ">21".toList =
      some (.ok [⟨.gt, { epoch := 0, release := [1], pre := none, post := none, dev := none, loc := [] }⟩]) := by
  decide +kernel

/-! ### C17 -/

theorem itoaNat_zero {n : Nat} {r : Str} (h : itoaNat n = '0' :: r) : n = 0 := by
  induction n using itoaNat.induct generalizing r with
  | case1 n hn =>
    rw [itoaNat, if_pos hn] at h
    simp only [List.cons.injEq] at h
    have key : ∀ k : Fin 10, digChar k.val = '0' → k.val = 0 := by decide
    exact key ⟨n, hn⟩ h.1
  | case2 n hn ih =>
    rw [itoaNat, if_neg hn] at h
    obtain ⟨c, t, e⟩ := List.exists_cons_of_ne_nil (itoaNat_ne_nil (n / 10))
    rw [e, List.cons_append, List.cons.injEq] at h
    have := ih (r := t) (by rw [e, h.1])
    omega

theorem writeRel_not (ns : List Int) {t : Str} (ht : NotStart isDig t) : NotStart isDig (writeRel ns ++ t) := by
  cases ns with
  | nil => exact ht
  | cons n ns => exact notStart_cons (by decide)

/-- what may occur in a printed version -/
def printC (c : Char) : Bool := lowAlnum c || c = '!' || c = '.' || c = '+' || c = '-'

theorem itoa_print (n : Int) : ∀ c ∈ itoa n, isDig c = true ∨ c = '-' := by
  intro c hc
  unfold itoa at hc
  split at hc
  · rcases List.mem_cons.1 hc with h | h
    · exact Or.inr h
    · exact Or.inl (List.all_eq_true.1 (itoaNat_all _) c h)
  · exact Or.inl (List.all_eq_true.1 (itoaNat_all _) c hc)

theorem writeRel_print (ns : List Int) : ∀ c ∈ writeRel ns, isDig c = true ∨ c = '-' ∨ c = '.' := by
  induction ns with
  | nil => intro c hc; cases hc
  | cons n ns ih =>
    intro c hc
    simp only [writeRel, List.mem_cons, List.mem_append] at hc
    rcases hc with rfl | hc | hc
    · simp
    · rcases itoa_print n c hc with h | h <;> simp [h]
    · exact ih c hc

/-- the public part of a version that was read prints with digits, lower-case letters, `!`, `.` only -/
theorem writeTo_print {v : Ver} (p : Parsed v) {s : Str} (h : v.toPubVer.writeTo = some s) :
    ∀ c ∈ s, (isDig c = true ∨ c = '-' ∨ c = '.') ∨ c ∈ ['!', 'a', 'b', 'r', 'c', 'p', 'o', 's', 't', 'd', 'e', 'v'] := by
  unfold PubVer.writeTo at h
  split at h
  · cases h
  rename_i n ns hr
  injection h with h
  subst h
  have num : ∀ (k : Int) (c : Char), c ∈ itoa k →
      (isDig c = true ∨ c = '-' ∨ c = '.') ∨ c ∈ ['!', 'a', 'b', 'r', 'c', 'p', 'o', 's', 't', 'd', 'e', 'v'] := by
    intro k c hc
    rcases itoa_print k c hc with h | h <;> simp [h]
  intro c hc
  simp only [List.mem_append, or_assoc] at hc
  rcases hc with hc | hc | hc | hc | hc | hc
  · split at hc
    · rw [List.mem_append] at hc
      rcases hc with hc | hc
      · exact num _ _ hc
      · simp at hc; simp [hc]
    · cases hc
  · exact num _ _ hc
  · exact Or.inl (writeRel_print ns c hc)
  · split at hc
    · rename_i l k hp
      have hl := (p.pre l k hp).1
      rw [List.mem_append] at hc
      rcases hc with hc | hc
      · simp only [List.mem_cons, List.not_mem_nil, or_false] at hl
        right
        rcases hl with rfl | rfl | rfl <;> simp at hc <;> simp [hc]
        rcases hc with rfl | rfl <;> simp
      · exact num _ _ hc
    · cases hc
  · split at hc
    · rw [List.mem_append] at hc
      rcases hc with hc | hc
      · simp at hc
        rcases hc with rfl | rfl | rfl | rfl | rfl <;> simp
      · exact num _ _ hc
    · cases hc
  · split at hc
    · rw [List.mem_append] at hc
      rcases hc with hc | hc
      · simp at hc
        rcases hc with rfl | rfl | rfl | rfl <;> simp
      · exact num _ _ hc
    · cases hc

theorem printed_print {v : Ver} (p : Parsed v) {t : Str} (h : v.string = some t) : ∀ c ∈ t, printC c = true := by
  unfold Ver.string at h
  split at h
  · cases h
  rename_i s hs
  injection h with h
  subst h
  intro c hc
  rw [List.mem_append] at hc
  rcases hc with hc | hc
  · rcases writeTo_print p hs c hc with (h | h | h) | h
    · simp [printC, lowAlnum, h]
    · simp [printC, h]
    · simp [printC, h]
    · simp only [List.mem_cons, List.not_mem_nil, or_false] at h
      rcases h with rfl | rfl | rfl | rfl | rfl | rfl | rfl | rfl | rfl | rfl | rfl | rfl <;> decide
  · have key : ∀ (l : List Seg) (sep : Char), (∀ g ∈ l, g ∈ v.loc) → printC sep = true → ∀ c ∈ writeLoc sep l, printC c = true := by
      intro l
      induction l with
      | nil => intro _ _ _ c hc; cases hc
      | cons g l ih =>
        intro sep hl hsep c hc
        simp only [writeLoc, List.mem_cons, List.mem_append] at hc
        rcases hc with rfl | hc | hc
        · exact hsep
        · cases g with
          | int n =>
            rcases itoa_print n c hc with h | h
            · simp [printC, lowAlnum, h]
            · simp [printC, h]
          | str w => simp [printC, (p.locStr w (hl _ (by simp))).2.1 c hc]
        · exact ih '.' (fun g hg => hl g (by simp [hg])) (by decide) c hc
    exact key v.loc '+' (fun _ h => h) (by decide) c hc

theorem print_not {c : Char} (h : printC c = true) : isSpace c = false ∧ c ≠ ',' ∧ c ≠ '*' ∧ c ≠ '=' := by
  have hb : c.toNat < 384 := by
    simp only [printC, lowAlnum, Bool.or_eq_true, decide_eq_true_eq, Bool.and_eq_true] at h
    rcases h with ((((((h | h) | h) | h) | h) | h) | h)
    · have := isDig_iff.1 h; omega
    · have := char_le.1 h.2
      have e : 'z'.toNat = 122 := rfl
      omega
    all_goals subst h; decide
  have key : ∀ n : Fin 384, printC (Char.ofNat n.val) = true → isSpace (Char.ofNat n.val) = false ∧ Char.ofNat n.val ≠ ',' ∧
      Char.ofNat n.val ≠ '*' ∧ Char.ofNat n.val ≠ '=' := by decide +kernel
  have := key ⟨c.toNat, hb⟩
  simp only [Char.ofNat_toNat] at this
  exact this h

theorem opText_chars (op : CmpOp) : op.text ≠ [] ∧ ∀ c ∈ op.text, isSpace c = false ∧ c ≠ ',' := by
  cases op <;> decide

/-- a printed version starts with a digit, and a zero is not followed by another digit -/
theorem printed_start {v : Ver} (p : Parsed v) {t : Str} (h : v.string = some t) :
    ∃ c r, t = c :: r ∧ isDig c = true ∧ (c = '0' → NotStart isDig r) := by
  have start : ∀ (n : Int) (u : Str), 0 ≤ n → NotStart isDig u → ∃ c r, itoa n ++ u = c :: r ∧ isDig c = true ∧
      (c = '0' → NotStart isDig r) := by
    intro n u hn hu
    have hd := digits_itoa hn
    obtain ⟨c, r, e⟩ := List.exists_cons_of_ne_nil hd.1
    refine ⟨c, r ++ u, by rw [e]; rfl, hd.2 c (by simp [e]), ?_⟩
    rintro rfl
    have e' := e
    rw [itoa_nonneg hn] at e'
    have h0 := itoaNat_zero e'
    rw [h0] at e'
    have : r = [] := by
      rw [show itoaNat 0 = ['0'] by decide +kernel] at e'
      simpa using e'.symm
    subst this
    exact hu
  unfold Ver.string at h
  split at h
  · cases h
  rename_i s hs
  injection h with h
  subst h
  unfold PubVer.writeTo at hs
  split at hs
  · cases hs
  rename_i n ns hr
  injection hs with hs
  subst hs
  by_cases he : v.epoch > 0
  · rw [if_pos he]
    obtain ⟨c, r, e, hc⟩ := start v.epoch ('!' :: ((itoa n ++ writeRel ns) ++
      (match v.pre with | some (l, k) => l ++ itoa k | none => []) ++
      (match v.post with | some k => ".post".toList ++ itoa k | none => []) ++
      (match v.dev with | some k => ".dev".toList ++ itoa k | none => []) ++ writeLoc '+' v.loc)) p.epoch.1
      (notStart_cons (by decide))
    exact ⟨c, r, by rw [← e]; simp only [List.append_assoc, List.nil_append, List.cons_append]; rfl, hc⟩
  · rw [if_neg he]
    have hloc : NotStart isDig (writeLoc '+' v.loc) := by
      cases v.loc with
      | nil => exact notStart_nil _
      | cons g l => exact notStart_cons (by decide)
    have hdev : NotStart isDig ((match v.dev with | some k => ".dev".toList ++ itoa k | none => []) ++ writeLoc '+' v.loc) := by
      cases v.dev with
      | none => exact hloc
      | some k => exact notStart_cons (by decide)
    have hpost : NotStart isDig ((match v.post with | some k => ".post".toList ++ itoa k | none => []) ++
        ((match v.dev with | some k => ".dev".toList ++ itoa k | none => []) ++ writeLoc '+' v.loc)) := by
      cases v.post with
      | none => exact hdev
      | some k => exact notStart_cons (by decide)
    have hpre : NotStart isDig ((match v.pre with | some (l, k) => l ++ itoa k | none => []) ++
        ((match v.post with | some k => ".post".toList ++ itoa k | none => []) ++
        ((match v.dev with | some k => ".dev".toList ++ itoa k | none => []) ++ writeLoc '+' v.loc))) := by
      cases hp : v.pre with
      | none => exact hpost
      | some lk =>
        obtain ⟨l, k⟩ := lk
        have hl := (p.pre l k hp).1
        simp only [List.mem_cons, List.not_mem_nil, or_false] at hl
        rcases hl with rfl | rfl | rfl <;> exact notStart_cons (by decide)
    obtain ⟨c, r, e, hc⟩ := start n _ (p.releaseNN n (by rw [hr]; simp)).1 (writeRel_not ns hpre)
    exact ⟨c, r, by rw [← e]; simp only [List.append_assoc, List.nil_append, List.cons_append]; rfl, hc⟩

theorem read_back {sp : Specifier} : ∀ {ts : List Str}, sp.mapM Clause.string = some ts → (∀ c ∈ sp, Parsed c.ver) →
    parseClauses (fieldsFunc (fun c => c = ',') (join [','] ts)) = some (.ok sp) →
    ∀ c ∈ sp, ∃ t, c.ver.string = some t ∧ parseClause (trimSpace (c.op.text ++ t)) = some (.ok c) := by
  induction sp with
  | nil => intro _ _ _ _ c hc; cases hc
  | cons c cs ih =>
    intro ts hts hp h
    rw [List.mapM_cons] at hts
    cases hs : c.string with
    | none => rw [hs] at hts; cases hts
    | some tc =>
      cases hr : cs.mapM Clause.string with
      | none => rw [hs, hr] at hts; cases hts
      | some us =>
        rw [hs, hr] at hts
        have : ts = tc :: us := by injection hts with e; exact e.symm
        subst this
        unfold Clause.string at hs
        rw [Option.map_eq_some_iff] at hs
        obtain ⟨t, ht, rfl⟩ := hs
        have ho := opText_chars c.op
        have hpr := printed_print (hp c (by simp)) ht
        have hne : c.op.text ++ t ≠ [] := by simp [ho.1]
        have hcm : ∀ x ∈ c.op.text ++ t, (decide (x = ',')) = false := by
          intro x hx
          rw [decide_eq_false_iff_not]
          rcases List.mem_append.1 hx with hx | hx
          · exact (ho.2 x hx).2
          · exact (print_not (hpr x hx)).2.1
        have hf : fieldsFunc (fun c => decide (c = ',')) (join [','] ((c.op.text ++ t) :: us)) =
            (c.op.text ++ t) :: fieldsFunc (fun c => decide (c = ',')) (join [','] us) := by
          cases us with
          | nil => simp only [join]; rw [fieldsFunc_none hne hcm]; rfl
          | cons u us =>
            simp only [join]
            rw [List.append_assoc, show [','] ++ join [','] (u :: us) = ',' :: join [','] (u :: us) from rfl,
              fieldsFunc_cons hne hcm (by decide)]
        rw [hf] at h
        have htr : trimSpace (c.op.text ++ t) ≠ [] := by
          rw [trimSpace_op ho.1 (fun x hx => (ho.2 x hx).1)]; simp [ho.1]
        rw [parseClauses, if_neg htr] at h
        split at h
        · cases h
        · cases h
        · rename_i c0 h0
          split at h
          · cases h
          · cases h
          · rename_i cs0 h1
            injection h with h
            injection h with h
            injection h with e1 e2
            subst e1 e2
            intro d hd
            rcases List.mem_cons.1 hd with rfl | hd
            · exact ⟨t, ht, h0⟩
            · exact ih hr (fun c hc => hp c (by simp [hc])) h1 d hd

/-- C17, exactly, for clauses: a specifier that was read prints as a text that is read as the same clauses if and only
if none of its operators is `<`, `>`, `==….*` or `!=….*`, and none of its local segments is a negative number (which
only happens when a number of 2³¹ or more was truncated). -/
theorem C17_exact {s : Str} {sp : Specifier} (h : parseSpecifier s = some (.ok sp)) :
    (∃ t, specString sp = some t ∧ parseSpecifier t = some (.ok sp)) ↔
      ∀ c ∈ sp, c.op ∉ [CmpOp.lt, .gt, .prefixMatch, .prefixExclude] ∧ ∀ n, Seg.int n ∈ c.ver.loc → 0 ≤ n := by
  constructor
  · rintro ⟨t, ht, hp⟩ c hc
    have parsed : ∀ c ∈ sp, (∃ t, parseVersion t = .ok c.ver) ∧ (c.op ≠ .strictMatch → c.op ≠ .strictExclude → c.ver.loc = []) := by
      intro c hc
      obtain ⟨x, hx⟩ := parseClauses_ok h c hc
      obtain ⟨h1, -, -, h2, -⟩ := parseClause_ok hx
      exact ⟨h1, h2⟩
    unfold specString at ht
    rw [Option.map_eq_some_iff] at ht
    obtain ⟨ts, hts, rfl⟩ := ht
    obtain ⟨u, hu, hcl⟩ := read_back hts (fun c hc => by
      obtain ⟨⟨_, h1⟩, -⟩ := parsed c hc; exact parsed_shape h1) hp c hc
    obtain ⟨⟨x, hx⟩, hloc⟩ := parsed c hc
    have hpar := parsed_shape hx
    have hpr := printed_print hpar hu
    have ho := opText_chars c.op
    have hrt : rtrim u = u := by
      unfold rtrim
      rw [dropWhile_self, List.reverse_reverse]
      intro y hy
      exact (print_not (hpr y (by rw [← List.mem_reverse]; exact List.mem_of_mem_head? hy))).1
    have hstar : '*' ∉ u := fun hm => (print_not (hpr _ hm)).2.2.1 rfl
    have heq : '=' ∉ u := fun hm => (print_not (hpr _ hm)).2.2.2 rfl
    have htrim : trimSpace (c.op.text ++ u) = c.op.text ++ u := by
      rw [trimSpace_op ho.1 (fun x hx => (ho.2 x hx).1), hrt]
    obtain ⟨-, p2, p3, -⟩ := splitOp_plain hstar heq
    obtain ⟨op, v⟩ := c
    dsimp only at *
    have strict : ∀ op', splitOp (op.text ++ u) = some (.ok (op', u, 1, true, true)) → op = op' ∧ parseVersion u = .ok v := by
      intro op' hs
      unfold parseClause at hcl
      rw [htrim, htrim, hs] at hcl
      simp only at hcl
      split at hcl
      · cases hcl
      · rename_i w hw
        repeat' split at hcl
        all_goals first | (cases hcl; done) | skip
        injection hcl with hcl
        injection hcl with hcl
        injection hcl with e1 e2
        exact ⟨e1.symm, e2 ▸ hw⟩
    have short : ∀ o, op.text = o → (op, o) ∈ [(CmpOp.lt, "<".toList), (.gt, ">".toList)] → False := by
      rintro _ rfl hm
      have hl : v.loc = [] := by
        simp only [List.mem_cons, Prod.mk.injEq, List.not_mem_nil, or_false] at hm
        rcases hm with ⟨rfl, -⟩ | ⟨rfl, -⟩ <;> exact hloc (by simp) (by simp)
      obtain ⟨y, r, rfl, hy, hz⟩ := printed_start hpar hu
      have hyd := isDig_iff.1 hy
      rw [clause_short hm (by omega) (by rintro rfl; exact heq (by simp)) hrt hl] at hcl
      have hno : ∀ z : Char, (z = '\u017f' ∨ z = '\u212a') → z ∉ y :: r := by
        intro z hz' hm'
        unfold Ver.string at hu
        split at hu
        · cases hu
        rename_i s' hs'
        rw [hl] at hu
        simp only [writeLoc, List.append_nil, Option.some.injEq] at hu
        rw [← hu] at hm'
        have := writeTo_print hpar hs' z hm'
        rcases hz' with rfl | rfl <;> revert this <;> decide +kernel
      have hok : parseVersion (y :: r) = .ok v := by
        obtain ⟨t', ht', hp'⟩ := (C04_exact hx).1.2 (by rw [hl]; simp)
        rw [hu] at ht'; cases ht'; exact hp'
      have hd := ((drop_first hok (hno _ (Or.inl rfl)) (hno _ (Or.inr rfl))).2).1 hcl
      rcases hd with hd | rfl | rfl | ⟨rfl, d, t', rfl, hd⟩
      · have := space_not (c := y) rfl (Or.inl hy); simp_all
      · revert hy; decide
      · revert hy; decide
      · have := hz rfl d t' rfl; rw [hd] at this; cases this
    constructor
    · intro hm
      simp only [List.mem_cons, List.not_mem_nil, or_false] at hm
      rcases hm with rfl | rfl | rfl | rfl
      · exact short _ rfl (by decide)
      · exact short _ rfl (by decide)
      · exact absurd (strict .strictMatch p2).1 (by decide)
      · exact absurd (strict .strictExclude p3).1 (by decide)
    · intro n hn
      rcases Int.lt_or_le n 0 with hneg | hpos
      · exfalso
        have hbad := neg_unreadable hu hneg hn
        by_cases h1 : op = .strictMatch
        · subst h1; rw [(strict .strictMatch p2).2] at hbad; cases hbad
        · by_cases h2 : op = .strictExclude
          · subst h2; rw [(strict .strictExclude p3).2] at hbad; cases hbad
          · rw [hloc h1 h2] at hn; cases hn
      · exact hpos
  · intro hall
    refine C17_print_parse_partial h (fun c hc => ?_) (fun c hc => (hall c hc).2)
    have := (hall c hc).1
    cases hop : c.op <;> simp_all

-- one that comes back and one that does not
example : (∃ sp t, parseSpecifier " >= 1.4rc2 , !=1.4+Ubuntu.7".toList = some (.ok sp) ∧ specString sp = some t ∧
      parseSpecifier t = some (.ok sp)) ∧
    (∃ sp, parseSpecifier "< 2,>=1".toList = some (.ok sp) ∧ ¬ ∃ t, specString sp = some t ∧ parseSpecifier t = some (.ok sp)) := by
  constructor
  · have h : parseSpecifier " >= 1.4rc2 , !=1.4+Ubuntu.7".toList = some (.ok
        [⟨.ge, { epoch := 0, release := [1, 4], pre := some ("rc".toList, 2), post := none, dev := none, loc := [] }⟩,
         ⟨.strictExclude, { epoch := 0, release := [1, 4], pre := none, post := none, dev := none, loc := [.str "ubuntu".toList, .int 7] }⟩]) := by
      decide +kernel
    obtain ⟨t, h1, h2⟩ := (C17_exact h).2 (by simp)
    exact ⟨_, t, h, h1, h2⟩
  · have h : parseSpecifier "< 2,>=1".toList = some (.ok
        [⟨.lt, { epoch := 0, release := [2], pre := none, post := none, dev := none, loc := [] }⟩,
         ⟨.ge, { epoch := 0, release := [1], pre := none, post := none, dev := none, loc := [] }⟩]) := by decide +kernel
    exact ⟨_, h, fun hx => by have := (C17_exact h).1 hx; simp at this⟩

end Pep440
