import Verif.Pep440.Spec
import Verif.Go.Lemmas
import Verif.Go.RegexpLemmas
/-! Lemmas about parsing printed versions. -/
namespace Pep440
open Go Spec

def Digits (w : Str) : Prop := w ≠ [] ∧ ∀ c ∈ w, isDig c = true

theorem digits_itoa {n : Int} (h : 0 ≤ n) : Digits (itoa n) := by
  rw [itoa_nonneg h]
  refine ⟨itoaNat_ne_nil _, ?_⟩
  have := itoaNat_all n.toNat
  rw [List.all_eq_true] at this
  exact this

theorem notStart_nil (p : Char → Bool) : NotStart p [] := by intro c t h; cases h
theorem notStart_cons {p : Char → Bool} {c : Char} {t : Str} (h : p c = false) : NotStart p (c :: t) := by
  intro d u e; cases e; exact h

theorem isDig_ne {c d : Char} (h : isDig c = true) (hd : isDig d = false) : c ≠ d := by
  rintro rfl; rw [h] at hd; cases hd

theorem isSep_dig {c : Char} (h : isDig c = true) : isSep c = false := by
  have h1 := isDig_ne h (d := '-') (by decide)
  have h2 := isDig_ne h (d := '_') (by decide)
  have h3 := isDig_ne h (d := '.') (by decide)
  simp [isSep, h1, h2, h3]

theorem reSpace_dig {c : Char} (h : isDig c = true) : reSpace c = false := by
  have h1 := isDig_ne h (d := '\t') (by decide)
  have h2 := isDig_ne h (d := '\n') (by decide)
  have h3 := isDig_ne h (d := '\x0c') (by decide)
  have h4 := isDig_ne h (d := '\r') (by decide)
  have h5 := isDig_ne h (d := ' ') (by decide)
  simp [reSpace, h1, h2, h3, h4, h5]

theorem ci_dig {c l : Char} (h : isDig c = true) (hl : isDig l = false) : ci l c = false := by
  have h1 := isDig_ne h hl
  have h2 := isDig_ne h (d := '\u017f') (by decide)
  have h3 := isDig_ne h (d := '\u212a') (by decide)
  have h4 : ¬ ('A' ≤ c ∧ c ≤ 'Z') := by
    rw [isDig_iff] at h
    simp only [Char.le_def, UInt32.le_iff_toNat_le]
    intro h'
    have : 65 ≤ c.toNat := h'.1
    omega
  simp only [Bool.and_eq_true, decide_eq_true_eq, ci]
  simp [h1, h2, h3, h4]

section
variable {β : Type} {k : Caps Grp → Str → Option β} {x : β}

theorem space_skip {s : Str} (h : NotStart reSpace s) : (Re.star (.chr reSpace) : Re Grp).first s k = k [] s := by
  rw [Re.first_star_chr, spans_stop h, List.findSome?_cons]
  cases k [] s <;> rfl

theorem chr_none {p : Char → Bool} {s : Str} (h : NotStart p s) : (Re.chr p : Re Grp).first s k = none := by
  cases s with
  | nil => rfl
  | cons c t => rw [Re.first_chr_cons, h c t rfl]; rfl

theorem optChr_skip {p : Char → Bool} {s : Str} (h : NotStart p s) :
    (Re.opt (.chr p) : Re Grp).first s k = k [] s := first_opt_skip _ (chr_none h)

theorem digits_notStart {w s : Str} {p : Char → Bool} (hw : Digits w) (hp : ∀ c, isDig c = true → p c = false) :
    NotStart p (w ++ s) := by
  obtain ⟨c, w', rfl⟩ := List.exists_cons_of_ne_nil hw.1
  exact notStart_cons (hp c (hw.2 c (by simp)))

theorem digits_cap {g : Grp} {w s : Str} (hw : Digits w) (h : NotStart isDig s) (hk : k [(g, w)] s = some x) :
    (Re.cap g reDigits).first (w ++ s) k = some x := by
  rw [Re.first_cap, reDigits]
  apply Re.first_plus_run _ hw.1 hw.2 h
  simpa using hk

theorem epoch_some {w s : Str} (hw : Digits w) (hk : k [(.epoch, w)] s = some x) :
    reEpoch.first (w ++ '!' :: s) k = some x := by
  unfold reEpoch
  apply first_opt_some
  rw [Re.first_seq]
  apply digits_cap hw (notStart_cons (by decide))
  rw [Re.first_chr_cons]
  simpa [lit] using hk

theorem epoch_none {w s : Str} (hw : Digits w) (h : NotStart isDig s) (h' : NotStart (lit '!') s) :
    reEpoch.first (w ++ s) k = k [] (w ++ s) := by
  unfold reEpoch
  apply first_opt_skip
  rw [Re.first_seq, Re.first_cap, reDigits]
  apply Re.first_plus_fail _ hw.2 h
  · exact chr_none h'
  · intro c v hc
    apply chr_none
    apply notStart_cons
    have := isDig_ne hc (d := '!') (by decide)
    simp [lit, this]

/-- what may follow the release segment -/
def RelStop (s : Str) : Prop := NotStart isDig s ∧ ∀ d t, s = '.' :: d :: t → isDig d = false

theorem relStar {ns : List Int} {s : Str} (hn : ∀ n ∈ ns, 0 ≤ n) (hs : RelStop s) (hk : k [] s = some x) :
    (Re.star (.seq (.chr (lit '.')) reDigits) : Re Grp).first (writeRel ns ++ s) k = some x := by
  induction ns with
  | nil =>
    rw [Re.first_star]
    have : (Re.seq (.chr (lit '.')) reDigits : Re Grp).first (writeRel [] ++ s)
        (fun c t => if t.length < (writeRel [] ++ s).length then
          (Re.star (.seq (.chr (lit '.')) reDigits) : Re Grp).first t (fun c' t' => k (c ++ c') t') else none)
        = none := by
      rw [Re.first_seq]
      simp only [writeRel, List.nil_append]
      cases s with
      | nil => rfl
      | cons c t =>
        rw [Re.first_chr_cons]
        by_cases hc : c = '.'
        · subst hc
          simp only [lit, decide_true, if_true]
          apply Re.first_plus_none
          cases t with
          | nil => exact notStart_nil _
          | cons d t => exact notStart_cons (hs.2 d t rfl)
        · simp [lit, hc]
    rw [this]
    simpa [writeRel] using hk
  | cons n ns ih =>
    have ih := ih (fun m hm => hn m (by simp [hm]))
    have hd := digits_itoa (hn n (by simp))
    rw [Re.first_star, Re.first_seq]
    simp only [writeRel, List.cons_append, List.append_assoc, Re.first_chr_cons, lit, decide_true, if_true]
    have hns : NotStart isDig (writeRel ns ++ s) := by
      cases ns with
      | nil => exact hs.1
      | cons m ms => exact notStart_cons (by decide)
    rw [show (reDigits : Re Grp) = Re.plus (.chr isDig) from rfl]
    rw [Re.first_plus_run _ hd.1 hd.2 hns (x := x)]
    · rfl
    · rw [if_pos (by simp; omega)]
      exact ih

theorem release_some {n : Int} {ns : List Int} {s : Str} (hn : 0 ≤ n) (hns : ∀ n ∈ ns, 0 ≤ n) (hs : RelStop s)
    (hk : k [(.release, itoa n ++ writeRel ns)] s = some x) :
    reRelease.first (itoa n ++ writeRel ns ++ s) k = some x := by
  unfold reRelease
  have hd := digits_itoa hn
  rw [Re.first_cap, Re.first_seq, List.append_assoc, reDigits]
  have hst : NotStart isDig (writeRel ns ++ s) := by
    cases ns with
    | nil => exact hs.1
    | cons m ms => exact notStart_cons (by decide)
  apply Re.first_plus_run _ hd.1 hd.2 hst
  apply relStar hns hs
  rw [take_split (w := itoa n ++ writeRel ns) (by simp)]
  simpa using hk

theorem numPart {g : Grp} {w s : Str} (hw : Digits w) (h : NotStart isDig s) (hk : k [(g, w)] s = some x) :
    (Re.seq reSep (.opt (.cap g reDigits))).first (w ++ s) k = some x := by
  rw [Re.first_seq, reSep, optChr_skip (digits_notStart hw (fun c hc => isSep_dig hc))]
  apply first_opt_some
  exact digits_cap hw h (by simpa using hk)

theorem numPart_letter {g : Grp} {c : Char} {t : Str} (h1 : isSep c = false) (h2 : isDig c = false) :
    (Re.seq reSep (.opt (.cap g reDigits))).first (c :: t) k = k [] (c :: t) := by
  rw [Re.first_seq, reSep, optChr_skip (notStart_cons h1), first_opt_skip]
  · rfl
  · rw [Re.first_cap, reDigits]; exact Re.first_plus_none _ (notStart_cons h2)

/-- beginnings of the text after the pre-release segment -/
inductive Shape : Str → Prop where
  | nil : Shape []
  | loc (t : Str) : Shape ('+' :: t)
  | dev (t : Str) : Shape ('.' :: 'd' :: 'e' :: 'v' :: t)
  | post (t : Str) : Shape ('.' :: 'p' :: 'o' :: 's' :: 't' :: t)

theorem Shape.notDig {s : Str} (h : Shape s) : NotStart isDig s := by
  cases h
  · exact notStart_nil _
  all_goals exact notStart_cons (by decide)

theorem Shape.relStop {s : Str} (h : Shape s) : RelStop s := by
  refine ⟨h.notDig, ?_⟩
  intro d t e
  cases h <;> cases e <;> decide

theorem pre_none {s : Str} (h : Shape s) : rePre.first s k = k [] s := by
  unfold rePre
  apply first_opt_skip
  cases h <;>
  simp [Re.seqs, Re.alts, reWord, Re.lit, Re.first_seq, Re.first_alt, Re.first_opt, Re.first_cap,
    Re.first_chr_cons, Re.first_chr_nil, reSep, isSep, ci]

theorem spell_cases {l : Str} (h : l ∈ spellings) : l = ['a'] ∨ l = ['a','l','p','h','a'] ∨ l = ['b'] ∨
    l = ['b','e','t','a'] ∨ l = ['c'] ∨ l = ['r','c'] ∨ l = ['p','r','e'] ∨ l = ['p','r','e','v','i','e','w'] := by
  simpa [spellings] using h

theorem pre_some {l w s : Str} (hl : l ∈ spellings) (hw : Digits w) (h : Shape s)
    (hk : k [(.preL, l), (.preN, w)] s = some x)
    (hf : ∀ c ∈ ['l', 'e', 'v'], ∀ cs t, k cs (c :: t) = none) :
    rePre.first (l ++ (w ++ s)) k = some x := by
  unfold rePre
  apply first_opt_some
  have num : (Re.seq reSep (.opt (.cap .preN reDigits))).first (w ++ s) (fun c t => k ((.preL, l) :: c) t) = some x :=
    numPart hw h.notDig hk
  have bad : ∀ c ∈ ['l', 'e', 'v'], ∀ l t,
      (Re.seq reSep (.opt (.cap .preN reDigits))).first (c :: t) (fun c t => k ((.preL, l) :: c) t) = none := by
    intro c hc cs t
    rw [numPart_letter]
    · exact hf c hc _ t
    · revert hc; simp; rintro (rfl | rfl | rfl) <;> decide
    · revert hc; simp; rintro (rfl | rfl | rfl) <;> decide
  have badl := bad 'l' (by simp)
  have bade := bad 'e' (by simp)
  have badv := bad 'v' (by simp)
  simp only [Re.seqs]
  generalize (Re.seq reSep (.opt (.cap Grp.preN reDigits))) = N at num badl bade badv
  have e2 : ∀ a : Nat, a + 1 + 1 - a = 2 := by omega
  have e3 : ∀ a : Nat, a + 1 + 1 + 1 - a = 3 := by omega
  have e4 : ∀ a : Nat, a + 1 + 1 + 1 + 1 - a = 4 := by omega
  have e5 : ∀ a : Nat, a + 1 + 1 + 1 + 1 + 1 - a = 5 := by omega
  have e7 : ∀ a : Nat, a + 1 + 1 + 1 + 1 + 1 + 1 + 1 - a = 7 := by omega
  rcases spell_cases hl with rfl | rfl | rfl | rfl | rfl | rfl | rfl | rfl <;>
  simp [Re.alts, reWord, Re.lit, Re.first_seq, Re.first_alt, Re.first_opt, Re.first_cap,
    Re.first_chr_cons, reSep, isSep, ci, e2, e3, e4, e5, e7, num, badl, bade, badv]

theorem post_none {s : Str} (h : Shape s) (hp : ∀ t, s ≠ '.' :: 'p' :: t) : rePost.first s k = k [] s := by
  unfold rePost
  apply first_opt_skip
  cases h <;> try exact absurd rfl (hp _)
  all_goals
    simp [Re.seqs, Re.alts, reWord, Re.lit, Re.first_seq, Re.first_alt, Re.first_opt, Re.first_cap,
      Re.first_chr_cons, Re.first_chr_nil, reSep, isSep, ci, lit]

theorem post_some {w s : Str} (hw : Digits w) (h : NotStart isDig s)
    (hk : k [(.postL, ['p', 'o', 's', 't']), (.postN2, w)] s = some x) :
    rePost.first ('.' :: 'p' :: 'o' :: 's' :: 't' :: (w ++ s)) k = some x := by
  unfold rePost
  apply first_opt_some
  have num : (Re.seq reSep (.opt (.cap .postN2 reDigits))).first (w ++ s)
      (fun c t => k ((.postL, ['p', 'o', 's', 't']) :: c) t) = some x := numPart hw h hk
  simp only [Re.seqs]
  generalize (Re.seq reSep (.opt (.cap Grp.postN2 reDigits))) = N at num
  have e4 : ∀ a : Nat, a + 1 + 1 + 1 + 1 - a = 4 := by omega
  simp [Re.alts, reWord, Re.lit, Re.first_seq, Re.first_alt, Re.first_opt, Re.first_cap, lit,
    Re.first_chr_cons, reSep, isSep, ci, e4, num]

theorem dev_none {s : Str} (h : Shape s) (hp : ∀ t, s ≠ '.' :: t) : reDev.first s k = k [] s := by
  unfold reDev
  apply first_opt_skip
  cases h <;> try exact absurd rfl (hp _)
  all_goals
    simp [Re.seqs, reWord, Re.lit, Re.first_seq, Re.first_opt, Re.first_cap,
      Re.first_chr_cons, Re.first_chr_nil, reSep, isSep, ci]

theorem dev_some {w s : Str} (hw : Digits w) (h : NotStart isDig s)
    (hk : k [(.devL, ['d', 'e', 'v']), (.devN, w)] s = some x) :
    reDev.first ('.' :: 'd' :: 'e' :: 'v' :: (w ++ s)) k = some x := by
  unfold reDev
  apply first_opt_some
  have num : (Re.seq reSep (.opt (.cap .devN reDigits))).first (w ++ s)
      (fun c t => k ((.devL, ['d', 'e', 'v']) :: c) t) = some x := numPart hw h hk
  simp only [Re.seqs]
  generalize (Re.seq reSep (.opt (.cap Grp.devN reDigits))) = N at num
  have e3 : ∀ a : Nat, a + 1 + 1 + 1 - a = 3 := by omega
  simp [reWord, Re.lit, Re.first_seq, Re.first_opt, Re.first_cap,
    Re.first_chr_cons, reSep, isSep, ci, e3, num]

/-- text accepted as one local segment -/
def Alnum (w : Str) : Prop := w ≠ [] ∧ ∀ c ∈ w, ciAlnum c = true

theorem locStar {ss : List Seg} (hs : ∀ g ∈ ss, Alnum g.string) (hk : k [] [] = some x) :
    (Re.star (.seq (.chr isSep) (.plus (.chr ciAlnum))) : Re Grp).first (writeLoc '.' ss) k = some x := by
  induction ss with
  | nil =>
    rw [Re.first_star, Re.first_seq]
    simpa [writeLoc, Re.first_chr_nil] using hk
  | cons g ss ih =>
    have ih := ih (fun m hm => hs m (by simp [hm]))
    have hd := hs g (by simp)
    rw [writeLoc, Re.first_star, Re.first_seq, Re.first_chr_cons, if_pos (by decide)]
    have hns : NotStart ciAlnum (writeLoc '.' ss) := by
      cases ss with
      | nil => exact notStart_nil _
      | cons m ms => exact notStart_cons (by decide)
    rw [Re.first_plus_run _ hd.1 hd.2 hns (x := x)]
    · rfl
    · rw [if_pos (by simp; omega)]
      exact ih

theorem loc_none (h : k [] [] = some x) : reLocal.first [] k = some x := by
  unfold reLocal
  rw [first_opt_skip, h]
  rw [Re.first_seq]; rfl

theorem loc_some {g : Seg} {ss : List Seg} (hs : ∀ s ∈ g :: ss, Alnum s.string)
    (hk : k [(.loc, g.string ++ writeLoc '.' ss)] [] = some x) :
    reLocal.first (writeLoc '+' (g :: ss)) k = some x := by
  unfold reLocal
  apply first_opt_some
  have hd := hs g (by simp)
  rw [Re.first_seq, writeLoc, Re.first_chr_cons, if_pos (by decide), Re.first_cap, Re.first_seq]
  have hns : NotStart ciAlnum (writeLoc '.' ss) := by
    cases ss with
    | nil => exact notStart_nil _
    | cons m ms => exact notStart_cons (by decide)
  apply Re.first_plus_run _ hd.1 hd.2 hns
  apply locStar (fun m hm => hs m (by simp [hm]))
  rw [take_split (w := g.string ++ writeLoc '.' ss) (by simp)]
  simpa using hk

theorem post_letter {c : Char} (hc : c ∈ ['l', 'e', 'v']) (t : Str) : rePost.first (c :: t) k = k [] (c :: t) := by
  unfold rePost
  apply first_opt_skip
  simp only [List.mem_cons, List.not_mem_nil, or_false] at hc
  rcases hc with rfl | rfl | rfl <;>
  simp [Re.seqs, Re.alts, reWord, Re.lit, Re.first_seq, Re.first_alt, Re.first_opt, Re.first_cap,
      Re.first_chr_cons, reSep, isSep, ci, lit]

theorem dev_letter {c : Char} (hc : c ∈ ['l', 'e', 'v']) (t : Str) : reDev.first (c :: t) k = k [] (c :: t) := by
  unfold reDev
  apply first_opt_skip
  simp only [List.mem_cons, List.not_mem_nil, or_false] at hc
  rcases hc with rfl | rfl | rfl <;>
  simp [Re.seqs, reWord, Re.lit, Re.first_seq, Re.first_opt, Re.first_cap,
      Re.first_chr_cons, reSep, isSep, ci]

theorem loc_letter {c : Char} (hc : c ∈ ['l', 'e', 'v']) (t : Str) : reLocal.first (c :: t) k = k [] (c :: t) := by
  unfold reLocal
  apply first_opt_skip
  simp only [List.mem_cons, List.not_mem_nil, or_false] at hc
  rcases hc with rfl | rfl | rfl <;> simp [Re.first_seq, Re.first_chr_cons, lit]

theorem Shape.notBang {s : Str} (h : Shape s) : NotStart (lit '!') s := by
  cases h
  · exact notStart_nil _
  all_goals exact notStart_cons (by decide)

end

/-! ### the whole match -/

def txtPre (v : PubVer) : Str := match v.pre with | some (l, n) => l ++ itoa n | none => []
def txtPost (v : PubVer) : Str := match v.post with | some n => ".post".toList ++ itoa n | none => []
def txtDev (v : PubVer) : Str := match v.dev with | some n => ".dev".toList ++ itoa n | none => []

def capEpoch (v : PubVer) : Caps Grp := if v.epoch > 0 then [(.epoch, itoa v.epoch)] else []
def capPre (v : PubVer) : Caps Grp := match v.pre with | some (l, n) => [(.preL, l), (.preN, itoa n)] | none => []
def capPost (v : PubVer) : Caps Grp :=
  match v.post with | some n => [(.postL, ['p', 'o', 's', 't']), (.postN2, itoa n)] | none => []
def capDev (v : PubVer) : Caps Grp :=
  match v.dev with | some n => [(.devL, ['d', 'e', 'v']), (.devN, itoa n)] | none => []
def capLoc : List Seg → Caps Grp
  | [] => []
  | g :: ss => [(.loc, g.string ++ writeLoc '.' ss)]

/-- sufficient for the printed form to be matched as intended: canonical apart from the spelling of the pre-release -/
structure Printable (v : Ver) : Prop where
  release : v.release ≠ []
  releaseNN : ∀ n ∈ v.release, 0 ≤ n
  pre : ∀ l n, v.pre = some (l, n) → l ∈ spellings ∧ 0 ≤ n
  post : ∀ n, v.post = some n → 0 ≤ n
  dev : ∀ n, v.dev = some n → 0 ≤ n
  loc : ∀ g ∈ v.loc, Alnum g.string

theorem shapeLoc (ss : List Seg) : Shape (writeLoc '+' ss) := by
  cases ss with
  | nil => exact .nil
  | cons g ss => exact .loc _

theorem shapeDev (v : PubVer) (ss : List Seg) : Shape (txtDev v ++ writeLoc '+' ss) := by
  unfold txtDev
  split
  · simpa using Shape.dev _
  · simpa using shapeLoc ss

theorem shapePost (v : PubVer) (ss : List Seg) : Shape (txtPost v ++ (txtDev v ++ writeLoc '+' ss)) := by
  unfold txtPost
  split
  · simpa using Shape.post _
  · simpa using shapeDev v ss

theorem writeLoc_not_dot (ss : List Seg) (t : Str) : writeLoc '+' ss ≠ '.' :: t := by
  cases ss with
  | nil => simp [writeLoc]
  | cons g ss => simp [writeLoc]

theorem txtDev_not_post (v : PubVer) (ss : List Seg) (t : Str) : txtDev v ++ writeLoc '+' ss ≠ '.' :: 'p' :: t := by
  unfold txtDev
  split
  · simp
  · simpa using writeLoc_not_dot ss _

def kfin : Caps Grp → Str → Option (Caps Grp) := fun c t => if t.isEmpty then some c else none

theorem tail_letter (c0 : Caps Grp) (c : Char) (hc : c ∈ ['l', 'e', 'v']) (t : Str) (f : Caps Grp → Caps Grp) :
    (Re.seq rePost (.seq reDev reLocal)).first (c :: t)
      (fun c1 t1 => (Re.star (.chr reSpace)).first t1 (fun c2 t2 => kfin (f (c0 ++ c1) ++ c2) t2)) = none := by
  rw [Re.first_seq, post_letter hc, Re.first_seq, dev_letter hc, loc_letter hc, space_skip]
  · rfl
  · apply notStart_cons
    simp only [List.mem_cons, List.not_mem_nil, or_false] at hc
    rcases hc with rfl | rfl | rfl <;> decide

theorem match_printed (v : Ver) (h : Printable v) :
    ∃ s m, v.string = some s ∧ reVersion.matchFull s = some m ∧
      m = capEpoch v.toPubVer ++ ((.release, match v.release with | [] => [] | n :: ns => itoa n ++ writeRel ns) ::
        (capPre v.toPubVer ++ (capPost v.toPubVer ++ (capDev v.toPubVer ++ capLoc v.loc)))) := by
  obtain ⟨n, ns, hrel⟩ := List.exists_cons_of_ne_nil h.release
  have hnn := h.releaseNN
  rw [hrel] at hnn
  have hn : 0 ≤ n := hnn n (by simp)
  have hns : ∀ m ∈ ns, 0 ≤ m := fun m hm => hnn m (by simp [hm])
  let S3 := writeLoc '+' v.loc
  let S2 := txtDev v.toPubVer ++ S3
  let S1 := txtPost v.toPubVer ++ S2
  let S0 := txtPre v.toPubVer ++ S1
  let R := itoa n ++ writeRel ns ++ S0
  let E : Str := if v.epoch > 0 then itoa v.epoch ++ ['!'] else []
  refine ⟨E ++ R, _, ?_, ?_, rfl⟩
  · simp only [Ver.string, PubVer.writeTo, hrel]
    simp only [E, R, S0, S1, S2, S3, txtPre, txtPost, txtDev, List.append_assoc]
    rfl
  · have hdn := digits_itoa hn
    have sh3 : Shape S3 := shapeLoc v.loc
    have sh2 : Shape S2 := shapeDev v.toPubVer v.loc
    have sh1 : Shape S1 := shapePost v.toPubVer v.loc
    have sh0 : RelStop S0 := by
      show RelStop (txtPre v.toPubVer ++ S1)
      unfold txtPre
      split
      · rename_i l m hp
        have := (h.pre l m hp).1
        rcases spell_cases this with rfl | rfl | rfl | rfl | rfl | rfl | rfl | rfl <;>
        · refine ⟨notStart_cons (by decide), ?_⟩
          intro d t e; simp at e
      · simpa using sh1.relStop
    have hR : ∀ p : Char → Bool, (∀ c, isDig c = true → p c = false) → NotStart p R := fun p hp => by
      show NotStart p (itoa n ++ writeRel ns ++ S0)
      rw [List.append_assoc]; exact digits_notStart hdn hp
    have hE : ∀ p : Char → Bool, (∀ c, isDig c = true → p c = false) → NotStart p (E ++ R) := by
      intro p hp
      show NotStart p ((if v.epoch > 0 then itoa v.epoch ++ ['!'] else []) ++ R)
      split
      · rename_i he
        rw [List.append_assoc]
        exact digits_notStart (digits_itoa (by omega)) hp
      · simpa using hR p hp
    rw [Re.matchFull_first]
    show reVersion.first (E ++ R) kfin = _
    unfold reVersion reCore
    simp only [Re.seqs]
    rw [Re.first_seq, space_skip (hE _ (fun c hc => reSpace_dig hc)), Re.first_seq, Re.first_seq,
      optChr_skip (hE _ (fun c hc => ci_dig hc (by decide))), Re.first_seq]
    simp only [List.nil_append]
    -- epoch
    suffices hs : (Re.seq reRelease (.seq rePre (.seq rePost (.seq reDev reLocal)))).first R
        (fun c' t' => (Re.star (.chr reSpace)).first t'
          (fun c2 t2 => kfin ((capEpoch v.toPubVer ++ c') ++ c2) t2)) =
        some (capEpoch v.toPubVer ++ ((.release, itoa n ++ writeRel ns) ::
        (capPre v.toPubVer ++ (capPost v.toPubVer ++ (capDev v.toPubVer ++ capLoc v.loc))))) by
      rw [hrel]
      show reEpoch.first ((if v.epoch > 0 then itoa v.epoch ++ ['!'] else []) ++ R) _ = _
      unfold capEpoch at hs ⊢
      split
      · rename_i he
        rw [if_pos he] at hs
        rw [List.append_assoc]
        exact epoch_some (digits_itoa (by omega)) hs
      · rename_i he
        rw [if_neg he] at hs
        rw [List.nil_append]
        show reEpoch.first (itoa n ++ writeRel ns ++ S0) _ = _
        rw [List.append_assoc, epoch_none hdn]
        · rw [← List.append_assoc]; exact hs
        · cases ns with
          | nil => exact sh0.1
          | cons m ms => exact notStart_cons (by decide)
        · cases ns with
          | nil =>
            show NotStart _ (txtPre v.toPubVer ++ S1)
            unfold txtPre
            split
            · rename_i l m hp
              have := (h.pre l m hp).1
              rcases spell_cases this with rfl | rfl | rfl | rfl | rfl | rfl | rfl | rfl <;>
              exact notStart_cons (by decide)
            · rw [List.nil_append]
              exact sh1.notBang
          | cons m ms => exact notStart_cons (by decide)
    -- release
    rw [Re.first_seq]
    apply release_some hn hns sh0
    rw [Re.first_seq]
    -- pre-release
    suffices hs : (Re.seq rePost (.seq reDev reLocal)).first S1
        (fun c' t' => (Re.star (.chr reSpace)).first t' (fun c2 t2 => kfin (capEpoch v.toPubVer ++
          ((.release, itoa n ++ writeRel ns) :: (capPre v.toPubVer ++ c')) ++ c2) t2)) =
        some (capEpoch v.toPubVer ++ ((.release, itoa n ++ writeRel ns) ::
        (capPre v.toPubVer ++ (capPost v.toPubVer ++ (capDev v.toPubVer ++ capLoc v.loc))))) by
      show rePre.first (txtPre v.toPubVer ++ S1) _ = _
      unfold txtPre
      unfold capPre at hs ⊢
      split
      · rename_i l m hp
        rw [hp] at hs
        have hl := h.pre l m hp
        rw [List.append_assoc]
        apply pre_some hl.1 (digits_itoa hl.2) sh1
        · exact hs
        · intro c hc cs t
          exact tail_letter cs c hc t (fun z => capEpoch v.toPubVer ++ ((.release, itoa n ++ writeRel ns) :: z))
      · rename_i hp
        rw [hp] at hs
        rw [List.nil_append, pre_none sh1]
        exact hs
    rw [Re.first_seq]
    -- post-release
    suffices hs : (Re.seq reDev reLocal).first S2
        (fun c' t' => (Re.star (.chr reSpace)).first t' (fun c2 t2 => kfin (capEpoch v.toPubVer ++
          ((.release, itoa n ++ writeRel ns) :: (capPre v.toPubVer ++ (capPost v.toPubVer ++ c'))) ++ c2) t2)) =
        some (capEpoch v.toPubVer ++ ((.release, itoa n ++ writeRel ns) ::
        (capPre v.toPubVer ++ (capPost v.toPubVer ++ (capDev v.toPubVer ++ capLoc v.loc))))) by
      show rePost.first (txtPost v.toPubVer ++ S2) _ = _
      unfold txtPost
      unfold capPost at hs ⊢
      split
      · rename_i m hp
        rw [hp] at hs
        apply post_some (digits_itoa (h.post m hp)) sh2.notDig
        exact hs
      · rename_i hp
        rw [hp] at hs
        rw [List.nil_append, post_none sh2 (txtDev_not_post v.toPubVer v.loc)]
        exact hs
    rw [Re.first_seq]
    -- dev
    suffices hs : reLocal.first S3
        (fun c' t' => (Re.star (.chr reSpace)).first t' (fun c2 t2 => kfin (capEpoch v.toPubVer ++
          ((.release, itoa n ++ writeRel ns) :: (capPre v.toPubVer ++ (capPost v.toPubVer ++
            (capDev v.toPubVer ++ c')))) ++ c2) t2)) =
        some (capEpoch v.toPubVer ++ ((.release, itoa n ++ writeRel ns) ::
        (capPre v.toPubVer ++ (capPost v.toPubVer ++ (capDev v.toPubVer ++ capLoc v.loc))))) by
      show reDev.first (txtDev v.toPubVer ++ S3) _ = _
      unfold txtDev
      unfold capDev at hs ⊢
      split
      · rename_i m hp
        rw [hp] at hs
        apply dev_some (digits_itoa (h.dev m hp)) sh3.notDig
        exact hs
      · rename_i hp
        rw [hp] at hs
        rw [List.nil_append, dev_none sh3 (writeLoc_not_dot v.loc)]
        exact hs
    -- local
    show reLocal.first (writeLoc '+' v.loc) _ = _
    rcases hl : v.loc with _ | ⟨g, ss⟩
    · apply loc_none
      rw [space_skip (notStart_nil _)]
      simp [kfin, capLoc]
    · apply loc_some
      · intro s hs; exact h.loc s (by rw [hl]; exact hs)
      · rw [space_skip (notStart_nil _)]
        simp [kfin, capLoc]

end Pep440
