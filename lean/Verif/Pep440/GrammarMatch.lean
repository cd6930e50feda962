import Verif.Pep440.Grammar
import Verif.Pep440.RoundTrip
import Verif.Pep440.CaseSpace
/-! The regular expression on a text given by its pieces. -/
namespace Pep440
open Go Spec

/-- a word with its separators and digits -/
structure Wd where
  s1 : Str
  w : Str
  s2 : Str
  d : Str

def Wd.text (x : Wd) : Str := x.s1 ++ (x.w ++ (x.s2 ++ x.d))

structure Wd.Ok (words : List Str) (x : Wd) : Prop where
  s1 : Sep x.s1
  w : x.w ∈ words
  s2 : Sep x.s2
  d : x.d = [] ∨ Digits x.d

def Wd.caps (gl gn : Grp) (x : Wd) : Caps Grp := (gl, x.w) :: (if x.d = [] then [] else [(gn, x.d)])

theorem sep_char {s : Str} (h : Sep s) : s = [] ∨ ∃ c, s = [c] ∧ isSep c = true := by
  rcases h with h | h | h | h
  · exact Or.inl h
  · exact Or.inr ⟨_, h, by decide⟩
  · exact Or.inr ⟨_, h, by decide⟩
  · exact Or.inr ⟨_, h, by decide⟩

section
variable {β : Type} {k : Caps Grp → Str → Option β} {x : β}

theorem sep_some {s t : Str} (hs : Sep s) (ht : s = [] → NotStart isSep t) (hk : k [] t = some x) :
    reSep.first (s ++ t) k = some x := by
  rcases sep_char hs with rfl | ⟨c, rfl, hc⟩
  · rw [List.nil_append, reSep, optChr_skip (ht rfl), hk]
  · rw [reSep]
    apply first_opt_some
    rw [List.cons_append, Re.first_chr_cons, if_pos hc]
    exact hk

/-- separator and number, greedily -/
theorem num_some {g : Grp} {s d t : Str} (hs : Sep s) (hd : d = [] ∨ Digits d) (ht : s = [] → d = [] → NotStart isSep t)
    (hn : NotStart isDig t) (hk : k (if d = [] then [] else [(g, d)]) t = some x) :
    (Re.seq reSep (.opt (.cap g reDigits))).first (s ++ (d ++ t)) k = some x := by
  rw [Re.first_seq]
  apply sep_some hs
  · intro e
    rcases hd with rfl | hd
    · exact ht e rfl
    · exact digits_notStart hd (fun c hc => isSep_dig hc)
  · rcases hd with rfl | hd
    · rw [if_pos rfl] at hk
      rw [List.nil_append, first_opt_skip]
      · exact hk
      · rw [Re.first_cap, reDigits]; exact Re.first_plus_none _ hn
    · rw [if_neg hd.1] at hk
      apply first_opt_some
      exact digits_cap hd hn (by simpa using hk)

theorem dev_word {y : Wd} {t : Str} (hy : y.Ok ["dev".toList]) (ht : y.s2 = [] → y.d = [] → NotStart isSep t)
    (hn : NotStart isDig t) (hk : k (y.caps .devL .devN) t = some x) :
    reDev.first (y.text ++ t) k = some x := by
  obtain ⟨s1, w, s2, d⟩ := y
  have hw : w = ['d', 'e', 'v'] := by simpa using hy.w
  subst hw
  unfold reDev
  apply first_opt_some
  have num : (Re.seq reSep (.opt (.cap .devN reDigits))).first (s2 ++ (d ++ t))
      (fun c t => k ((.devL, ['d', 'e', 'v']) :: c) t) = some x := num_some hy.s2 hy.d ht hn hk
  simp only [Re.seqs, Wd.text, List.append_assoc]
  generalize (Re.seq reSep (.opt (.cap Grp.devN reDigits))) = N at num
  rw [Re.first_seq]
  apply sep_some hy.s1 (fun _ => notStart_cons (by decide))
  have e3 : ∀ a : Nat, a + 1 + 1 + 1 - a = 3 := by omega
  generalize s2 ++ (d ++ t) = u at num ⊢
  simp [reWord, Re.lit, Re.first_seq, Re.first_cap, Re.first_chr_cons, ci, e3, num]

theorem pre_word {y : Wd} {t : Str} (hy : y.Ok spellings) (ht : y.s2 = [] → y.d = [] → NotStart isSep t)
    (hn : NotStart isDig t) (hk : k (y.caps .preL .preN) t = some x)
    (hf : ∀ c ∈ ['l', 'e', 'v'], ∀ cs t, k cs (c :: t) = none) :
    rePre.first (y.text ++ t) k = some x := by
  obtain ⟨s1, l, s2, d⟩ := y
  have hl : l ∈ spellings := hy.w
  unfold rePre
  apply first_opt_some
  have num : (Re.seq reSep (.opt (.cap .preN reDigits))).first (s2 ++ (d ++ t))
      (fun c t => k ((.preL, l) :: c) t) = some x := num_some hy.s2 hy.d ht hn hk
  have bad : ∀ c ∈ ['l', 'e', 'v'], ∀ l t,
      (Re.seq reSep (.opt (.cap .preN reDigits))).first (c :: t) (fun c t => k ((.preL, l) :: c) t) = none := by
    intro c hc cs t
    rw [numPart_letter]
    · exact hf c hc _ t
    · revert hc; simp; rintro (rfl | rfl | rfl) <;> decide
    · revert hc; simp; rintro (rfl | rfl | rfl) <;> decide
  have badl := bad 'l' (by simp)
  have bade := bad 'e' (by simp)
  have badv := bad 'v' (by simp)
  simp only [Re.seqs, Wd.text, List.append_assoc]
  generalize (Re.seq reSep (.opt (.cap Grp.preN reDigits))) = N at num badl bade badv
  rw [Re.first_seq]
  apply sep_some hy.s1
  · intro _
    rcases spell_cases hl with rfl | rfl | rfl | rfl | rfl | rfl | rfl | rfl <;> exact notStart_cons (by decide)
  have e2 : ∀ a : Nat, a + 1 + 1 - a = 2 := by omega
  have e3 : ∀ a : Nat, a + 1 + 1 + 1 - a = 3 := by omega
  have e4 : ∀ a : Nat, a + 1 + 1 + 1 + 1 - a = 4 := by omega
  have e5 : ∀ a : Nat, a + 1 + 1 + 1 + 1 + 1 - a = 5 := by omega
  have e7 : ∀ a : Nat, a + 1 + 1 + 1 + 1 + 1 + 1 + 1 - a = 7 := by omega
  generalize s2 ++ (d ++ t) = u at num ⊢
  rcases spell_cases hl with rfl | rfl | rfl | rfl | rfl | rfl | rfl | rfl <;>
  simp [Re.alts, reWord, Re.lit, Re.first_seq, Re.first_alt, Re.first_cap,
    Re.first_chr_cons, ci, e2, e3, e4, e5, e7, num, badl, bade, badv]

theorem notStart_num {p : Char → Bool} {s d t : Str} (hs : Sep s) (hd : d = [] ∨ Digits d)
    (h1 : ∀ c, isSep c = true → p c = false) (h2 : ∀ c, isDig c = true → p c = false) (h3 : NotStart p t) :
    NotStart p (s ++ (d ++ t)) := by
  rcases sep_char hs with rfl | ⟨c, rfl, hc⟩
  · rcases hd with rfl | hd
    · simpa using h3
    · simpa using digits_notStart hd h2
  · exact notStart_cons (h1 c hc)

theorem post_word {y : Wd} {t : Str} (hy : y.Ok ["post".toList, "rev".toList, "r".toList])
    (ht : y.s2 = [] → y.d = [] → NotStart isSep t) (hn : NotStart isDig t) (he : NotStart (ci 'e') t)
    (hk : k (y.caps .postL .postN2) t = some x) :
    rePost.first (y.text ++ t) k = some x := by
  obtain ⟨s1, w, s2, d⟩ := y
  have hw : w = ['p', 'o', 's', 't'] ∨ w = ['r', 'e', 'v'] ∨ w = ['r'] := by simpa using hy.w
  unfold rePost
  apply first_opt_some
  have num : (Re.seq reSep (.opt (.cap .postN2 reDigits))).first (s2 ++ (d ++ t))
      (fun c t => k ((.postL, w) :: c) t) = some x := num_some hy.s2 hy.d ht hn hk
  have hu : NotStart (ci 'e') (s2 ++ (d ++ t)) := by
    apply notStart_num hy.s2 hy.d _ (fun c hc => ci_dig hc (by decide)) he
    intro c hc
    simp only [isSep, Bool.or_eq_true, decide_eq_true_eq] at hc
    rcases hc with (rfl | rfl) | rfl <;> decide
  simp only [Re.seqs, Wd.text, List.append_assoc]
  generalize (Re.seq reSep (.opt (.cap Grp.postN2 reDigits))) = N at num
  generalize s2 ++ (d ++ t) = u at num hu ⊢
  rw [Re.first_alt]
  have first : (Re.seq (.chr (lit '-')) (.cap Grp.postN1 reDigits)).first (s1 ++ (w ++ u)) k = none := by
    rw [Re.first_seq]
    have wd : NotStart (lit '-') (w ++ u) ∧ NotStart isDig (w ++ u) := by
      rcases hw with rfl | rfl | rfl <;> exact ⟨notStart_cons (by decide), notStart_cons (by decide)⟩
    rcases sep_char hy.s1 with h | ⟨c, h, hc⟩
    · dsimp only at h; subst h
      exact chr_none wd.1
    · dsimp only at h; subst h
      rw [List.cons_append, Re.first_chr_cons]
      split
      · rw [List.nil_append, Re.first_cap, reDigits]
        exact Re.first_plus_none _ wd.2
      · rfl
  rw [first, Option.none_or, Re.first_seq]
  apply sep_some hy.s1
  · intro _
    rcases hw with rfl | rfl | rfl <;> exact notStart_cons (by decide)
  have e1 : ∀ a : Nat, a + 1 - a = 1 := by omega
  have e3 : ∀ a : Nat, a + 1 + 1 + 1 - a = 3 := by omega
  have e4 : ∀ a : Nat, a + 1 + 1 + 1 + 1 - a = 4 := by omega
  have rev : ∀ {γ : Type} (q : Caps Grp → Str → Option γ) (z : Re Grp),
      (Re.seq (.chr (ci 'e')) z).first u q = none := fun q z => by
    rw [Re.first_seq]; exact chr_none hu
  rcases hw with rfl | rfl | rfl
  · simp [Re.alts, reWord, Re.lit, Re.first_seq, Re.first_alt, Re.first_cap,
      Re.first_chr_cons, ci, e1, e3, e4, num]
  · simp [Re.alts, reWord, Re.lit, Re.first_seq, Re.first_alt, Re.first_cap,
      Re.first_chr_cons, ci, e1, e3, e4, num]
  · have hr : (reWord "rev").first (['r'] ++ u) = fun (q : Caps Grp → Str → Option β) => none := by
      funext q
      show (Re.seq (.chr (ci 'r')) (.seq (.chr (ci 'e')) (.chr (ci 'v')))).first ('r' :: u) q = none
      rw [Re.first_seq, Re.first_chr_cons, if_pos (by decide)]
      exact rev _ _
    simp only [Re.alts, Re.first_seq, Re.first_alt, Re.first_cap, hr]
    simp [reWord, Re.lit, Re.first_seq, Re.first_chr_cons, ci, e1, num]

theorem post_dash {w t : Str} (hw : Digits w) (hn : NotStart isDig t) (hk : k [(.postN1, w)] t = some x) :
    rePost.first ('-' :: (w ++ t)) k = some x := by
  unfold rePost
  apply first_opt_some
  rw [Re.first_alt, Re.first_seq, Re.first_chr_cons, if_pos (by decide), digits_cap hw hn (x := x)]
  · rfl
  · simpa using hk

/-! ### what may follow -/

inductive Rest : Str → Prop where
  | nil : Rest []
  | loc (t : Str) : Rest ('+' :: t)
  | dev (s t : Str) : Sep s → Rest (s ++ ('d' :: 'e' :: 'v' :: t))
  | post (s t : Str) : Sep s → Rest (s ++ ('p' :: 'o' :: 's' :: 't' :: t))
  | rev (s t : Str) : Sep s → Rest (s ++ ('r' :: 'e' :: 'v' :: t))
  | r (s t : Str) : Sep s → NotStart (ci 'c') t → Rest (s ++ ('r' :: t))
  | dash (c : Char) (t : Str) : isDig c = true → Rest ('-' :: c :: t)

theorem Rest.notStart {s : Str} (h : Rest s) {p : Char → Bool}
    (hp : ∀ c ∈ ['+', '-', '_', '.', 'd', 'p', 'r'], p c = false) : NotStart p s := by
  have hsep : ∀ {s : Str} {c : Char} {t : Str}, Sep s → c ∈ ['+', '-', '_', '.', 'd', 'p', 'r'] →
      NotStart p (s ++ (c :: t)) := by
    intro s c t hs hc
    rcases hs with rfl | rfl | rfl | rfl
    · exact notStart_cons (hp c hc)
    all_goals exact notStart_cons (hp _ (by simp))
  cases h with
  | nil => exact notStart_nil _
  | loc t => exact notStart_cons (hp _ (by simp))
  | dev s t h => exact hsep h (by simp)
  | post s t h => exact hsep h (by simp)
  | rev s t h => exact hsep h (by simp)
  | r s t h => exact hsep h (by simp)
  | dash c t h => exact notStart_cons (hp _ (by simp))

theorem Rest.relStop {s : Str} (h : Rest s) : RelStop s := by
  refine ⟨h.notStart (by decide), ?_⟩
  intro d t e
  cases h with
  | nil => cases e
  | loc t => cases e
  | dash c t h => cases e
  | dev s t h => rcases h with rfl | rfl | rfl | rfl <;> cases e <;> decide
  | post s t h => rcases h with rfl | rfl | rfl | rfl <;> cases e <;> decide
  | rev s t h => rcases h with rfl | rfl | rfl | rfl <;> cases e <;> decide
  | r s t h => rcases h with rfl | rfl | rfl | rfl <;> cases e <;> decide

theorem sep_fail {s t : Str} (hs : Sep s) (ht : NotStart isSep t) (h1 : k [] t = none)
    (h2 : ∀ c, isSep c = true → s = [c] → k [] (c :: t) = none) : reSep.first (s ++ t) k = none := by
  rcases sep_char hs with rfl | ⟨c, rfl, hc⟩
  · rw [List.nil_append, reSep, optChr_skip ht, h1]
  · rw [reSep, List.cons_append, Re.first_opt, Re.first_chr_cons, if_pos hc, List.nil_append, h1, Option.none_or]
    exact h2 c hc rfl

def preAlts : Re Grp := .cap .preL (.alts [reWord "a", reWord "b", reWord "c", reWord "rc", reWord "alpha",
  reWord "beta", reWord "pre", reWord "preview"])

theorem preAlts_none {c : Char} {t : Str} (h : ∀ l ∈ ['a', 'b', 'c', 'r', 'p'], ci l c = false) :
    preAlts.first (c :: t) k = none := by
  have ha := h 'a' (by simp)
  have hb := h 'b' (by simp)
  have hc := h 'c' (by simp)
  have hr := h 'r' (by simp)
  have hp := h 'p' (by simp)
  simp [preAlts, Re.alts, reWord, Re.lit, Re.first_seq, Re.first_alt, Re.first_cap, Re.first_chr_cons,
    ha, hb, hc, hr, hp]

theorem preAlts_p {c : Char} {t : Str} (h : ci 'r' c = false) : preAlts.first ('p' :: c :: t) k = none := by
  have h1 : ∀ l ∈ ['a', 'b', 'c', 'r'], ci l 'p' = false := by decide
  simp [preAlts, Re.alts, reWord, Re.lit, Re.first_seq, Re.first_alt, Re.first_cap, Re.first_chr_cons,
    h1 'a' (by simp), h1 'b' (by simp), h1 'c' (by simp), h1 'r' (by simp), h]

theorem preAlts_r {t : Str} (h : NotStart (ci 'c') t) : preAlts.first ('r' :: t) k = none := by
  have h1 : ∀ l ∈ ['a', 'b', 'c', 'p'], ci l 'r' = false := by decide
  have hc : ∀ {γ : Type} (q : Caps Grp → Str → Option γ), (Re.chr (ci 'c')).first t q = none :=
    fun q => chr_none h
  simp [preAlts, Re.alts, reWord, Re.lit, Re.first_seq, Re.first_alt, Re.first_cap, Re.first_chr_cons,
    h1 'a' (by simp), h1 'b' (by simp), h1 'c' (by simp), h1 'p' (by simp), hc]

theorem pre_skip {s : Str} (h : Rest s) : rePre.first s k = k [] s := by
  unfold rePre
  apply first_opt_skip
  show (Re.seq reSep (.seq preAlts (.seq reSep (.opt (.cap .preN reDigits))))).first s k = none
  rw [Re.first_seq]
  generalize (Re.seq reSep (.opt (.cap Grp.preN reDigits))) = N
  have hsep : ∀ {γ : Type} (q : Caps Grp → Str → Option γ) (c : Char) (t : Str), isSep c = true →
      preAlts.first (c :: t) q = none := by
    intro γ q c t hc
    apply preAlts_none
    simp only [isSep, Bool.or_eq_true, decide_eq_true_eq] at hc
    rcases hc with (rfl | rfl) | rfl <;> decide
  cases h with
  | nil => rfl
  | loc t =>
    rw [reSep, optChr_skip (notStart_cons (by decide)), Re.first_seq]
    exact preAlts_none (by decide)
  | dash c t hc =>
    rw [reSep, Re.first_opt, Re.first_chr_cons, if_pos (by decide), Re.first_seq, Re.first_seq,
      preAlts_none (fun l hl => ci_dig hc (by revert hl; revert l; decide)), preAlts_none (by decide)]
    rfl
  | dev s t hs =>
    exact sep_fail hs (notStart_cons (by decide)) (by rw [Re.first_seq]; exact preAlts_none (by decide))
      (fun c hc _ => by rw [Re.first_seq]; exact hsep _ _ _ hc)
  | post s t hs =>
    exact sep_fail hs (notStart_cons (by decide)) (by rw [Re.first_seq]; exact preAlts_p (by decide))
      (fun c hc _ => by rw [Re.first_seq]; exact hsep _ _ _ hc)
  | rev s t hs =>
    exact sep_fail hs (notStart_cons (by decide))
      (by rw [Re.first_seq]; exact preAlts_r (notStart_cons (by decide)))
      (fun c hc _ => by rw [Re.first_seq]; exact hsep _ _ _ hc)
  | r s t hs ht =>
    exact sep_fail hs (notStart_cons (by decide)) (by rw [Re.first_seq]; exact preAlts_r ht)
      (fun c hc _ => by rw [Re.first_seq]; exact hsep _ _ _ hc)

/-- what may follow the post-release -/
inductive Rest2 : Str → Prop where
  | nil : Rest2 []
  | loc (t : Str) : Rest2 ('+' :: t)
  | dev (s t : Str) : Sep s → Rest2 (s ++ ('d' :: 'e' :: 'v' :: t))

theorem Rest2.rest {s : Str} (h : Rest2 s) : Rest s := by
  cases h with
  | nil => exact .nil
  | loc t => exact .loc t
  | dev s t hs => exact .dev s t hs

theorem post_skip {s : Str} (h : Rest2 s) : rePost.first s k = k [] s := by
  unfold rePost
  apply first_opt_skip
  have dig : ∀ {γ : Type} (q : Caps Grp → Str → Option γ) (t : Str), reDigits.first ('d' :: t) q = none :=
    fun q t => Re.first_plus_none _ (notStart_cons (by decide))
  cases h with
  | nil =>
    simp [Re.seqs, Re.alts, reWord, Re.lit, Re.first_seq, Re.first_alt, Re.first_opt, Re.first_cap,
      Re.first_chr_nil, reSep]
  | loc t =>
    simp [Re.seqs, Re.alts, reWord, Re.lit, Re.first_seq, Re.first_alt, Re.first_opt, Re.first_cap,
      Re.first_chr_cons, reSep, isSep, ci, lit]
  | dev s t hs =>
    rcases hs with rfl | rfl | rfl | rfl <;>
    simp [Re.seqs, Re.alts, reWord, Re.lit, Re.first_seq, Re.first_alt, Re.first_opt, Re.first_cap,
      Re.first_chr_cons, reSep, isSep, ci, lit, dig]

theorem dev_skip {s : Str} (h : s = [] ∨ ∃ t, s = '+' :: t) : reDev.first s k = k [] s := by
  rcases h with rfl | ⟨t, rfl⟩
  · exact dev_none .nil (by simp)
  · exact dev_none (.loc t) (by simp)

/-! ### release and local label -/

/-- further components -/
def relTxt (ws : List Str) : Str := ws.flatMap ('.' :: ·)

theorem relTxt_notDig {ws : List Str} {s : Str} (hs : RelStop s) : NotStart isDig (relTxt ws ++ s) := by
  cases ws with
  | nil => exact hs.1
  | cons m ms => exact notStart_cons (by decide)

theorem relStar' {ws : List Str} {s : Str} (hn : ∀ n ∈ ws, Digits n) (hs : RelStop s) (hk : k [] s = some x) :
    (Re.star (.seq (.chr (lit '.')) reDigits) : Re Grp).first (relTxt ws ++ s) k = some x := by
  induction ws with
  | nil => exact relStar (ns := []) (by simp) hs hk
  | cons n ws ih =>
    have ih := ih (fun m hm => hn m (by simp [hm]))
    have hd := hn n (by simp)
    have e : relTxt (n :: ws) ++ s = '.' :: (n ++ (relTxt ws ++ s)) := by simp [relTxt]
    rw [e, Re.first_star, Re.first_seq]
    simp only [Re.first_chr_cons, lit, decide_true, if_true]
    have hns := relTxt_notDig (ws := ws) hs
    rw [show (reDigits : Re Grp) = Re.plus (.chr isDig) from rfl]
    rw [Re.first_plus_run _ hd.1 hd.2 hns (x := x)]
    · rfl
    · rw [if_pos (by simp; omega)]
      exact ih

theorem release_word {n : Str} {ws : List Str} {s : Str} (hd : Digits n) (hns : ∀ n ∈ ws, Digits n) (hs : RelStop s)
    (hk : k [(.release, n ++ relTxt ws)] s = some x) :
    reRelease.first (n ++ (relTxt ws ++ s)) k = some x := by
  unfold reRelease
  rw [Re.first_cap, Re.first_seq, reDigits]
  apply Re.first_plus_run _ hd.1 hd.2 (relTxt_notDig hs)
  apply relStar' hns hs
  rw [take_split (w := n ++ relTxt ws) (by simp)]
  simpa using hk

/-- further segments of a local label, with their separators -/
def locTxt (ws : List (Char × Str)) : Str := ws.flatMap (fun p => p.1 :: p.2)

theorem sep_not_alnum {c : Char} (h : isSep c = true) : ciAlnum c = false := by
  cases e : ciAlnum c with
  | false => rfl
  | true => rw [ciAlnum_not_sep e] at h; cases h

theorem locTxt_not {ws : List (Char × Str)} (hs : ∀ p ∈ ws, isSep p.1 = true) : NotStart ciAlnum (locTxt ws) := by
  cases ws with
  | nil => exact notStart_nil _
  | cons m ms => exact notStart_cons (sep_not_alnum (hs m (by simp)))

theorem locStar' {ws : List (Char × Str)} (hs : ∀ p ∈ ws, isSep p.1 = true ∧ Alnum p.2) (hk : k [] [] = some x) :
    (Re.star (.seq (.chr isSep) (.plus (.chr ciAlnum))) : Re Grp).first (locTxt ws) k = some x := by
  induction ws with
  | nil => exact locStar (ss := []) (by simp) hk
  | cons g ss ih =>
    have ih := ih (fun m hm => hs m (by simp [hm]))
    have hd := hs g (by simp)
    have e : locTxt (g :: ss) = g.1 :: (g.2 ++ locTxt ss) := by simp [locTxt]
    rw [e, Re.first_star, Re.first_seq, Re.first_chr_cons, if_pos hd.1]
    have hns := locTxt_not (ws := ss) (fun p hp => (hs p (by simp [hp])).1)
    rw [Re.first_plus_run _ hd.2.1 hd.2.2 hns (x := x)]
    · rfl
    · rw [if_pos (by simp; omega)]
      exact ih

theorem loc_word {g : Str} {ws : List (Char × Str)} (hg : Alnum g) (hs : ∀ p ∈ ws, isSep p.1 = true ∧ Alnum p.2)
    (hk : k [(.loc, g ++ locTxt ws)] [] = some x) :
    reLocal.first ('+' :: (g ++ locTxt ws)) k = some x := by
  unfold reLocal
  apply first_opt_some
  rw [Re.first_seq, Re.first_chr_cons, if_pos (by decide), Re.first_cap, Re.first_seq]
  apply Re.first_plus_run _ hg.1 hg.2 (locTxt_not (fun p hp => (hs p hp).1))
  apply locStar' hs
  rw [take_split (w := g ++ locTxt ws) (by simp)]
  simpa using hk

end

end Pep440
