import Verif.Pep440.GrammarParse
import Verif.Go.RegexpLang
/-! Every reading of a version text can be brought to the one the parser finds. -/
namespace Pep440
open Go Spec

namespace Pieces

theorem tLoc_notSep (p : Pieces) : NotStart isSep p.tLoc := by
  rcases p.tLoc_cases with e | ⟨t, e⟩ <;> rw [e]
  · exact notStart_nil _
  · exact notStart_cons (by decide)

/-- give the separator of `z` to `y` -/
def giveL (y z : Wd) : Wd := { y with s2 := z.s1 }
def giveR (z : Wd) : Wd := { z with s1 := [] }

theorem give_text {y z : Wd} (h1 : y.s2 = []) (h2 : y.d = []) : (giveL y z).text ++ (giveR z).text = y.text ++ z.text := by
  simp [giveL, giveR, Wd.text, h1, h2]

theorem giveL_ok {y z : Wd} {ws zs : List Str} (h : y.Ok ws) (hz : z.Ok zs) : (giveL y z).Ok ws :=
  ⟨h.s1, h.w, hz.s1, h.d⟩

theorem giveR_ok {z : Wd} {zs : List Str} (hz : z.Ok zs) : (giveR z).Ok zs := ⟨Or.inl rfl, hz.w, hz.s2, hz.d⟩

/-- first step: between post-release and dev release -/
theorem normal_post {p : Pieces} (h : p.Ok) : ∃ q : Pieces, q.Ok ∧ q.text = p.text ∧ q.val = p.val ∧ q.loc = p.loc ∧
    q.pre = p.pre ∧ (∀ d, q.post = some (.inl d) → p.post = some (.inl d)) ∧
    (∀ y, q.post = some (.inr y) → y.s2 = [] → y.d = [] → NotStart isSep q.rest2) := by
  by_cases hc : ∃ y z, p.post = some (.inr y) ∧ y.s2 = [] ∧ y.d = [] ∧ p.dev = some z
  · obtain ⟨y, z, hy, h1, h2, hz⟩ := hc
    have oy := h.post2 y hy
    have oz := h.dev z hz
    refine ⟨{ p with post := some (.inr (giveL y z)), dev := some (giveR z) }, ?_, ?_, ?_, rfl, rfl, ?_, ?_⟩
    · exact { ep := h.ep, r0 := h.r0, rs := h.rs, pre := h.pre, post1 := by simp
              post2 := by rintro _ ⟨⟩; exact giveL_ok oy oz
              dev := by rintro _ ⟨⟩; exact giveR_ok oz
              loc := h.loc }
    · have e : ({ p with post := some (.inr (giveL y z)), dev := some (giveR z) } : Pieces).rest1 = p.rest1 := by
        simp only [rest1, rest2, tPost, tDev, tLoc, hy, hz]
        rw [← List.append_assoc, ← List.append_assoc, give_text h1 h2]
      simp only [text, relPart, rest0, e]
      rfl
    · simp [val, hy, hz, giveL, giveR]
    · simp
    · rintro _ ⟨⟩ h3 h4
      have hw : z.w = ['d', 'e', 'v'] := by simpa using oz.w
      simp only [rest2, tDev, giveR, Wd.text, hw]
      exact notStart_cons (by decide)
  · refine ⟨p, h, rfl, rfl, rfl, rfl, fun _ h => h, ?_⟩
    intro y hy h1 h2
    rcases hz : p.dev with _ | z
    · simp only [rest2, tDev, hz, List.nil_append]
      exact p.tLoc_notSep
    · exact absurd ⟨y, z, hy, h1, h2, hz⟩ hc

/-- the number of a post-release written `-N` does not follow a bare pre-release word -/
def Greedy (p : Pieces) : Prop := ∀ y d, p.pre = some y → p.post = some (.inl d) → ¬ (y.s2 = [] ∧ y.d = [])

/-- second step: between pre-release and what follows -/
theorem normal_pre {p : Pieces} (h : p.Ok)
    (hpost : ∀ y, p.post = some (.inr y) → y.s2 = [] → y.d = [] → NotStart isSep p.rest2) :
    ∃ q : Pieces, q.Ok ∧ q.NF ∧ q.text = p.text ∧ q.loc = p.loc ∧ (p.Greedy → q.val = p.val) := by
  by_cases hc : ∃ y, p.pre = some y ∧ y.s2 = [] ∧ y.d = []
  rotate_left
  · exact ⟨p, h, ⟨fun y hy h1 h2 => absurd ⟨y, hy, h1, h2⟩ hc, hpost⟩, rfl, rfl, fun _ => rfl⟩
  obtain ⟨y, hy, h1, h2⟩ := hc
  have oy := h.pre y hy
  rcases hq : p.post with _ | (d | z)
  · rcases hz : p.dev with _ | z
    · refine ⟨p, h, ⟨fun _ _ _ _ => ?_, hpost⟩, rfl, rfl, fun _ => rfl⟩
      simp only [rest1, rest2, tPost, tDev, hq, hz, List.nil_append]
      exact p.tLoc_notSep
    · have oz := h.dev z hz
      refine ⟨{ p with pre := some (giveL y z), dev := some (giveR z) }, ?_, ⟨?_, ?_⟩, ?_, rfl, ?_⟩
      · exact { ep := h.ep, r0 := h.r0, rs := h.rs, post1 := h.post1, post2 := h.post2
                pre := by rintro _ ⟨⟩; exact giveL_ok oy oz
                dev := by rintro _ ⟨⟩; exact giveR_ok oz
                loc := h.loc }
      · rintro _ ⟨⟩ _ _
        have hw : z.w = ['d', 'e', 'v'] := by simpa using oz.w
        simp only [rest1, rest2, tPost, tDev, giveR, Wd.text, hw, hq]
        exact notStart_cons (by decide)
      · intro y hy'; rw [show p.post = some (.inr y) from hy'] at hq; cases hq
      · have e : ({ p with pre := some (giveL y z), dev := some (giveR z) } : Pieces).rest0 = p.rest0 := by
          simp only [rest0, rest1, rest2, tPre, tPost, tDev, tLoc, hy, hq, hz, List.nil_append]
          rw [← List.append_assoc, ← List.append_assoc, give_text h1 h2]
        simp only [text, relPart, e]
        rfl
      · intro _
        simp [val, hy, hz, giveL, giveR]
  · have od := h.post1 d hq
    refine ⟨{ p with pre := some { y with s2 := ['-'], d := d }, post := none }, ?_, ⟨?_, ?_⟩, ?_, rfl, ?_⟩
    · exact { ep := h.ep, r0 := h.r0, rs := h.rs, post1 := by simp, post2 := by simp
              pre := by rintro _ ⟨⟩; exact ⟨oy.s1, oy.w, Or.inr (Or.inl rfl), Or.inr od⟩
              dev := h.dev
              loc := h.loc }
    · rintro _ ⟨⟩ h3 _; cases h3
    · simp
    · have e : ({ p with pre := some { y with s2 := ['-'], d := d }, post := none } : Pieces).rest0 = p.rest0 := by
        simp [rest0, rest1, rest2, tPre, tPost, tDev, tLoc, hy, hq, Wd.text, h1, h2]
      simp only [text, relPart, e]
      rfl
    · intro hg
      exact absurd ⟨h1, h2⟩ (hg y d hy hq)
  · have oz := h.post2 z hq
    refine ⟨{ p with pre := some (giveL y z), post := some (.inr (giveR z)) }, ?_, ⟨?_, ?_⟩, ?_, rfl, ?_⟩
    · exact { ep := h.ep, r0 := h.r0, rs := h.rs, post1 := by simp
              pre := by rintro _ ⟨⟩; exact giveL_ok oy oz
              post2 := by rintro _ ⟨⟩; exact giveR_ok oz
              dev := h.dev
              loc := h.loc }
    · rintro _ ⟨⟩ _ _
      have hw : z.w = ['p', 'o', 's', 't'] ∨ z.w = ['r', 'e', 'v'] ∨ z.w = ['r'] := by simpa using oz.w
      rcases hw with hw | hw | hw <;>
      · simp only [rest1, tPost, giveR, Wd.text, hw]
        exact notStart_cons (by decide)
    · rintro _ ⟨⟩ h3 h4
      exact hpost z hq h3 h4
    · have e : ({ p with pre := some (giveL y z), post := some (.inr (giveR z)) } : Pieces).rest0 = p.rest0 := by
        simp only [rest0, rest1, rest2, tPre, tPost, tDev, tLoc, hy, hq]
        rw [← List.append_assoc, ← List.append_assoc, give_text h1 h2]
        simp only [List.append_assoc]
      simp only [text, relPart, e]
      rfl
    · intro _
      simp [val, hy, hq, giveL, giveR]

theorem normal {p : Pieces} (h : p.Ok) : ∃ q : Pieces, q.Ok ∧ q.NF ∧ q.text = p.text ∧ q.loc = p.loc ∧
    (p.Greedy → q.val = p.val) := by
  obtain ⟨p', h', ht, hv, hl, hp, hd, hpost⟩ := normal_post h
  obtain ⟨q, a, b, c, d, e⟩ := normal_pre h' hpost
  refine ⟨q, a, b, c.trans ht, d.trans hl, fun hg => (e ?_).trans hv⟩
  intro y dd hy hdd
  exact hg y dd (hp ▸ hy) (hd dd hdd)

end Pieces

/-! ### texts the regular expression accepts -/

theorem match_lang {γ : Type} {r : Re γ} {s : Str} {m : Caps γ} (h : r.matchFull s = some m) : r.Lang s :=
  (Re.matchFull_lang r s).1 (by rw [h]; rfl)

/-- neither upper case nor one of the two letters that fold to ASCII ones -/
def Low (w : Str) : Prop := ∀ c ∈ w, ¬ (65 ≤ c.toNat ∧ c.toNat ≤ 90) ∧ c ≠ '\u017f' ∧ c ≠ '\u212a'

theorem Low.left {u v : Str} (h : Low (u ++ v)) : Low u := fun c hc => h c (by simp [hc])
theorem Low.right {u v : Str} (h : Low (u ++ v)) : Low v := fun c hc => h c (by simp [hc])

theorem ci_low {c d : Char} (h : ci c d = true) (hl : Low [d]) : d = c := by
  obtain ⟨h1, h2, h3⟩ := hl d (by simp)
  simp only [ci, Bool.or_eq_true, decide_eq_true_eq, Bool.and_eq_true] at h
  rcases h with ((h | h) | h) | h
  · exact h
  · rw [if_neg] at h
    · cases h
    · rw [upper_iff]; exact h1
  · exact absurd h.2 h2
  · exact absurd h.2 h3

theorem lit_lang {s w : Str} (h : (Re.lit ci s : Re Grp).Lang w) (hl : Low w) : w = s := by
  induction s generalizing w with
  | nil => exact h
  | cons c t ih =>
    cases t with
    | nil =>
      obtain ⟨d, rfl, hd⟩ := h
      rw [ci_low hd hl]
    | cons e t =>
      obtain ⟨u, v, rfl, ⟨d, rfl, hd⟩, hv⟩ := h
      rw [ci_low hd hl.left, ih hv hl.right]
      rfl

theorem star_chr_lang {γ : Type} {p : Char → Bool} {w : Str} (h : (Re.star (.chr p) : Re γ).Lang w) : ∀ c ∈ w, p c = true :=
  Re.lang_star_chr.1 h

theorem plus_chr_lang {γ : Type} {p : Char → Bool} {w : Str} (h : (Re.plus (.chr p) : Re γ).Lang w) :
    w ≠ [] ∧ ∀ c ∈ w, p c = true := Re.lang_plus_chr.1 h

theorem digits_lang {w : Str} (h : reDigits.Lang w) : Digits w := plus_chr_lang h

theorem sep_lang {w : Str} (h : reSep.Lang w) : Sep w := by
  rcases h.symm with ⟨c, rfl, hc⟩ | rfl
  · simp only [isSep, Bool.or_eq_true, decide_eq_true_eq] at hc
    rcases hc with (rfl | rfl) | rfl
    · exact Or.inr (Or.inl rfl)
    · exact Or.inr (Or.inr (Or.inl rfl))
    · exact Or.inr (Or.inr (Or.inr rfl))
  · exact Or.inl rfl

theorem num_lang {g : Grp} {w : Str} (h : (Re.opt (.cap g reDigits)).Lang w) : w = [] ∨ Digits w :=
  h.symm.elim (fun h => Or.inr (digits_lang h)) Or.inl

theorem lowAlnum_of_ci {c : Char} (h : ciAlnum c = true) (hl : Low [c]) :
    c ∈ "abcdefghijklmnopqrstuvwxyz0123456789".toList := by
  obtain ⟨h1, h2, h3⟩ := hl c (by simp)
  simp only [ciAlnum, Bool.or_eq_true, decide_eq_true_eq, Bool.and_eq_true, isDig_iff, char_le] at h
  have key : ∀ n : Fin 123, (48 ≤ n.val ∧ n.val ≤ 57) ∨ (97 ≤ n.val ∧ n.val ≤ 122) →
      Char.ofNat n.val ∈ "abcdefghijklmnopqrstuvwxyz0123456789".toList := by decide
  have fin : ∀ m : Nat, c.toNat = m → m < 123 → (48 ≤ m ∧ m ≤ 57) ∨ (97 ≤ m ∧ m ≤ 122) →
      c ∈ "abcdefghijklmnopqrstuvwxyz0123456789".toList := by
    intro m hm hlt hr
    have := key ⟨m, hlt⟩ hr
    have e : c = Char.ofNat m := by rw [← hm, Char.ofNat_toNat]
    rw [e]; exact this
  rcases h with (((h | h) | h) | h) | h
  · exact fin _ rfl (by omega) (Or.inl h)
  · have a1 : 97 ≤ c.toNat := h.1
    have a2 : c.toNat ≤ 122 := h.2
    exact fin _ rfl (by omega) (Or.inr ⟨a1, a2⟩)
  · exact absurd h h1
  · exact absurd h h2
  · exact absurd h h3

theorem alnum_lang {w : Str} (h : (Re.plus (.chr ciAlnum) : Re Grp).Lang w) (hl : Low w) : LowA w := by
  obtain ⟨h1, h2⟩ := plus_chr_lang h
  exact ⟨h1, fun c hc => lowAlnum_of_ci (h2 c hc) (fun d hd => by simp at hd; exact hl d (hd ▸ hc))⟩

theorem relTail_lang {w : Str} (h : (Re.star (.seq (.chr (lit '.')) reDigits) : Re Grp).Lang w) :
    ∃ rs, w = relTxt rs ∧ ∀ d ∈ rs, Digits d := by
  obtain ⟨ws, rfl, hws⟩ := h
  induction ws with
  | nil => exact ⟨[], rfl, by simp⟩
  | cons x ws ih =>
    obtain ⟨rs, e, hrs⟩ := ih (fun y hy => hws y (by simp [hy]))
    obtain ⟨u, v, rfl, ⟨c, rfl, hc⟩, hv⟩ := hws x (by simp)
    have hc : c = '.' := by simpa [lit] using hc
    subst hc
    exact ⟨v :: rs, by simp [relTxt, e], by simpa using ⟨digits_lang hv, hrs⟩⟩

theorem locTail_lang {w : Str} (h : (Re.star (.seq (.chr isSep) (.plus (.chr ciAlnum))) : Re Grp).Lang w) (hl : Low w) :
    ∃ ws, w = locTxt ws ∧ ∀ q ∈ ws, isSep q.1 = true ∧ LowA q.2 := by
  obtain ⟨ws, rfl, hws⟩ := h
  induction ws with
  | nil => exact ⟨[], rfl, by simp⟩
  | cons x ws ih =>
    rw [List.flatten_cons] at hl
    obtain ⟨rs, e, hrs⟩ := ih (fun y hy => hws y (by simp [hy])) hl.right
    obtain ⟨u, v, rfl, ⟨c, rfl, hc⟩, hv⟩ := hws x (by simp)
    exact ⟨(c, v) :: rs, by simp [locTxt, e], by
      intro q hq
      rw [List.mem_cons] at hq
      rcases hq with rfl | hq
      · exact ⟨hc, alnum_lang hv hl.left.right⟩
      · exact hrs q hq⟩

/-- every text the regular expression accepts is made of pieces -/
theorem core_lang {w : Str} (h : reCore.Lang w) (hl : Low w) :
    ∃ vv p, w = vv ++ Pieces.text p ∧ (vv = [] ∨ vv = ['v']) ∧ p.Ok := by
  simp only [reCore, Re.seqs] at h
  obtain ⟨vv, w1, rfl, hvv, ep, w2, rfl, hep, rel, w3, rfl, hrel, pre, w4, rfl, hpre, post, w5, rfl, hpost, dev, loc,
    rfl, hdev, hloc⟩ := h
  have l1 := hl.right.right.right
  have lpre := l1.left
  have lpost := l1.right.left
  have ldev := l1.right.right.left
  have lloc := l1.right.right.right
  have vv' : vv = [] ∨ vv = ['v'] := by
    rcases hvv.symm with ⟨c, rfl, hc⟩ | rfl
    · right; rw [ci_low hc hl.left]
    · left; rfl
  have ep' : ∃ e : Option Str, ep = (match e with | none => [] | some d => d ++ ['!']) ∧ ∀ d, e = some d → Digits d := by
    rcases hep.symm with ⟨u, v, rfl, hu, c, rfl, hc⟩ | rfl
    · have hc : c = '!' := by simpa [lit] using hc
      subst hc
      exact ⟨some u, rfl, by rintro _ ⟨⟩; exact digits_lang hu⟩
    · exact ⟨none, rfl, by simp⟩
  have rel' : ∃ r0 rs, rel = r0 ++ relTxt rs ∧ Digits r0 ∧ ∀ d ∈ rs, Digits d := by
    obtain ⟨u, v, rfl, hu, hv⟩ := hrel
    obtain ⟨rs, rfl, hrs⟩ := relTail_lang hv
    exact ⟨u, rs, rfl, digits_lang hu, hrs⟩
  have pre' : ∃ y : Option Wd, pre = (match y with | none => [] | some y => y.text) ∧ ∀ x, y = some x → x.Ok spellings := by
    rcases hpre.symm with ⟨s1, w1, rfl, hs1, l, w2, rfl, hlw, s2, d, rfl, hs2, hd⟩ | rfl
    · refine ⟨some ⟨s1, l, s2, d⟩, rfl, ?_⟩
      rintro _ ⟨⟩
      refine ⟨sep_lang hs1, ?_, sep_lang hs2, num_lang hd⟩
      have ll := lpre.right.left
      simp only [Re.alts] at hlw
      show l ∈ spellings
      rcases hlw with h | h | h | h | h | h | h | h <;> rw [lit_lang h ll] <;> decide
    · exact ⟨none, rfl, by simp⟩
  have post' : ∃ y : Option (Str ⊕ Wd),
      post = (match y with | none => [] | some (.inl d) => '-' :: d | some (.inr y) => y.text) ∧
      (∀ d, y = some (.inl d) → Digits d) ∧
      ∀ x, y = some (.inr x) → x.Ok ["post".toList, "rev".toList, "r".toList] := by
    rcases hpost.symm with (⟨u, d, rfl, ⟨c, rfl, hc⟩, hd⟩ | ⟨s1, w1, rfl, hs1, l, w2, rfl, hlw, s2, d, rfl, hs2, hd⟩) | rfl
    · have hc : c = '-' := by simpa [lit] using hc
      subst hc
      exact ⟨some (.inl d), rfl, by rintro _ ⟨⟩; exact digits_lang hd, by rintro _ ⟨⟩⟩
    · refine ⟨some (.inr ⟨s1, l, s2, d⟩), rfl, by rintro _ ⟨⟩, ?_⟩
      rintro _ ⟨⟩
      refine ⟨sep_lang hs1, ?_, sep_lang hs2, num_lang hd⟩
      have ll := lpost.right.left
      simp only [Re.alts] at hlw
      show l ∈ ["post".toList, "rev".toList, "r".toList]
      rcases hlw with h | h | h <;> rw [lit_lang h ll] <;> decide
    · exact ⟨none, rfl, by simp, by simp⟩
  have dev' : ∃ y : Option Wd, dev = (match y with | none => [] | some y => y.text) ∧
      ∀ x, y = some x → x.Ok ["dev".toList] := by
    rcases hdev.symm with ⟨s1, w1, rfl, hs1, l, w2, rfl, hlw, s2, d, rfl, hs2, hd⟩ | rfl
    · refine ⟨some ⟨s1, l, s2, d⟩, rfl, ?_⟩
      rintro _ ⟨⟩
      refine ⟨sep_lang hs1, ?_, sep_lang hs2, num_lang hd⟩
      show l ∈ ["dev".toList]
      rw [lit_lang hlw ldev.right.left]
      decide
    · exact ⟨none, rfl, by simp⟩
  have loc' : ∃ y : Option (Str × List (Char × Str)),
      loc = (match y with | none => [] | some (g, ws) => '+' :: (g ++ locTxt ws)) ∧
      ∀ g ws, y = some (g, ws) → LowA g ∧ ∀ q ∈ ws, isSep q.1 = true ∧ LowA q.2 := by
    rcases hloc.symm with ⟨u, v, rfl, ⟨c, rfl, hc⟩, g, t, rfl, hg, ht⟩ | rfl
    · have hc : c = '+' := by simpa [lit] using hc
      subst hc
      obtain ⟨ws, rfl, hws⟩ := locTail_lang ht lloc.right.right
      exact ⟨some (g, ws), rfl, by rintro _ _ ⟨⟩; exact ⟨alnum_lang hg lloc.right.left, hws⟩⟩
    · exact ⟨none, rfl, by simp⟩
  obtain ⟨e, rfl, he⟩ := ep'
  obtain ⟨r0, rs, rfl, hr0, hrs⟩ := rel'
  obtain ⟨y, rfl, hy⟩ := pre'
  obtain ⟨z, rfl, hz1, hz2⟩ := post'
  obtain ⟨x, rfl, hx⟩ := dev'
  obtain ⟨l, rfl, hl'⟩ := loc'
  refine ⟨vv, ⟨e, r0, rs, y, z, x, l⟩, ?_, vv', ⟨he, hr0, hrs, hy, hz1, hz2, hx, hl'⟩⟩
  simp only [Pieces.text, Pieces.relPart, Pieces.rest0, Pieces.rest1, Pieces.rest2, List.append_assoc]
  rfl

end Pep440
