import Verif.Cli.Wrap
/-! C80: wrapping never changes the words. -/
namespace Cli

namespace Spec
/-- blank bytes: space, tab, newline -/
def blank (c : UInt8) : Bool := c = 32 || c = 9 || c = 10

/-- `cur` is the word read so far -/
def wordsFrom (cur : List UInt8) : List UInt8 → List (List UInt8)
  | [] => if cur = [] then [] else [cur]
  | c :: s => if blank c then (if cur = [] then [] else [cur]) ++ wordsFrom [] s else wordsFrom (cur ++ [c]) s

/-- the words of a text: its maximal runs of non-blank bytes -/
def words (s : List UInt8) : List (List UInt8) := wordsFrom [] s

/-- the lines of a text, joined again with each line after the first indented -/
def indented (i : Nat) : List UInt8 → List UInt8
  | [] => []
  | c :: s => if c = 10 then c :: (List.replicate i 32 ++ indented i s) else c :: indented i s
end Spec
open Spec

theorem wordsFrom_blank (c : UInt8) (hc : blank c = true) (a b : Bytes) :
    ∀ cur, wordsFrom cur (a ++ c :: b) = wordsFrom cur a ++ wordsFrom [] b := by
  induction a with
  | nil => intro cur; simp [wordsFrom, hc]
  | cons d a ih =>
    intro cur
    rw [List.cons_append, wordsFrom, wordsFrom]
    split
    · rw [ih, List.append_assoc]
    · rw [ih]

theorem words_blank (c : UInt8) (hc : blank c = true) (a b : Bytes) : words (a ++ c :: b) = words a ++ words b :=
  wordsFrom_blank c hc a b []

theorem words_spaces (n : Nat) (s : Bytes) : words (spaces n ++ s) = words s := by
  induction n with
  | zero => rfl
  | succ n ih =>
    rw [spaces, List.replicate_succ]
    have := words_blank sp (by decide) [] (List.replicate n sp ++ s)
    rw [List.nil_append] at this
    rw [List.cons_append, this]
    exact ih

theorem words_nl_spaces (a : Bytes) (n : Nat) (s : Bytes) : words (a ++ nl :: spaces n ++ s) = words a ++ words s := by
  rw [List.append_assoc, List.cons_append, words_blank nl (by decide), words_spaces]

theorem wordsFrom_replace (n : Nat) (s : Bytes) : ∀ cur, wordsFrom cur (replaceNl (nl :: spaces n) s) = wordsFrom cur s := by
  induction s with
  | nil => intro cur; rfl
  | cons c s ih =>
    intro cur
    unfold replaceNl
    rw [List.flatMap_cons]
    by_cases h : c = nl
    · rw [if_pos h]
      have h1 := wordsFrom_blank nl (by decide) [] (spaces n ++ replaceNl (nl :: spaces n) s) cur
      rw [List.nil_append] at h1
      rw [List.cons_append]
      refine h1.trans ?_
      have h2 : wordsFrom [] (spaces n ++ replaceNl (nl :: spaces n) s) = wordsFrom [] (replaceNl (nl :: spaces n) s) := words_spaces n _
      have h3 : wordsFrom cur ([] ++ nl :: s) = wordsFrom cur [] ++ wordsFrom [] s := wordsFrom_blank nl (by decide) [] s cur
      rw [List.nil_append] at h3
      rw [h2, ih, h, h3]
    · rw [if_neg h]
      show wordsFrom cur (c :: replaceNl (nl :: spaces n) s) = _
      rw [wordsFrom, wordsFrom, ih, ih]

theorem words_replace (n : Nat) (s : Bytes) : words (replaceNl (nl :: spaces n) s) = words s := wordsFrom_replace n s []

theorem lastIndex_some {f : UInt8 → Bool} {s : Bytes} {i : Nat} (h : lastIndex f s = some i) :
    ∃ c, s[i]? = some c ∧ f c = true ∧ i < s.length := by
  induction s generalizing i with
  | nil => cases h
  | cons c s ih =>
    rw [lastIndex] at h
    cases h1 : lastIndex f s with
    | some j =>
      rw [h1] at h
      cases h
      obtain ⟨d, h2, h3, h4⟩ := ih h1
      exact ⟨d, by simpa using h2, h3, by simpa using h4⟩
    | none =>
      rw [h1] at h
      simp only at h
      by_cases hf : f c = true
      · rw [if_pos hf] at h
        cases h
        exact ⟨c, rfl, hf, by simp⟩
      · rw [if_neg hf] at h; cases h

/-- splitting at a blank -/
theorem words_cut {s : Bytes} {n : Nat} {c : UInt8} (h : s[n]? = some c) (hc : blank c = true) :
    words (s.take n) ++ words (s.drop (n + 1)) = words s := by
  rw [← words_blank c hc]
  congr 1
  obtain ⟨hl, he⟩ := List.getElem?_eq_some_iff.mp h
  rw [← he, List.getElem_cons_drop, List.take_append_drop]

/-- what `wrapN` returns: the text cut at a blank, the second part being shorter -/
theorem wrapN_spec (i slop : Nat) (s : Bytes) :
    words (wrapN i slop s).1 ++ words (wrapN i slop s).2 = words s ∧ ((wrapN i slop s).2 = [] ∨ (wrapN i slop s).2.length < s.length) := by
  have whole : words (s, ([] : Bytes)).1 ++ words (s, ([] : Bytes)).2 = words s ∧
      ((s, ([] : Bytes)).2 = [] ∨ (s, ([] : Bytes)).2.length < s.length) := ⟨by simp [words, wordsFrom], Or.inl rfl⟩
  unfold wrapN
  split
  · exact whole
  · split
    · exact whole
    · rename_i w hw
      obtain ⟨c, h1, h2, h3⟩ := lastIndex_some hw
      have hl : w < s.length := by rw [List.length_take] at h3; omega
      have hi : w < i := by rw [List.length_take] at h3; omega
      have hcut : words (s.take w) ++ words (s.drop (w + 1)) = words s ∧ (s.drop (w + 1) = [] ∨ (s.drop (w + 1)).length < s.length) := by
        refine ⟨words_cut (c := c) ?_ ?_, Or.inr (by rw [List.length_drop]; omega)⟩
        · rw [List.getElem?_take, if_pos hi] at h1; exact h1
        · exact h2
      split
      · exact whole
      · split
        · rename_i n hn
          split
          · obtain ⟨d, g1, g2, g3⟩ := lastIndex_some hn
            rw [List.length_take] at g3
            refine ⟨words_cut (c := d) ?_ ?_, Or.inr (by simp only; rw [List.length_drop]; omega)⟩
            · rw [List.getElem?_take, if_pos (by omega)] at g1; exact g1
            · have : d = nl := of_decide_eq_true g2
              rw [this]; decide
          · exact hcut
        · exact hcut

/-- the loop ends and keeps the words -/
theorem wrapLoop_spec (i width : Nat) : ∀ (fuel : Nat) (r s : Bytes), s.length ≤ fuel →
    ∃ out, wrapLoop i width fuel r s = some out ∧ words out = words r ++ words s := by
  intro fuel
  induction fuel with
  | zero =>
    intro r s h
    have : s = [] := List.length_eq_zero_iff.mp (by omega)
    subst this
    exact ⟨r, by simp [wrapLoop], by simp [words, wordsFrom]⟩
  | succ fuel ih =>
    intro r s h
    cases s with
    | nil => exact ⟨r, by simp [wrapLoop], by simp [words, wordsFrom]⟩
    | cons c s =>
      obtain ⟨hw, hlen⟩ := wrapN_spec width 5 (c :: s)
      rw [wrapLoop]
      obtain ⟨out, h1, h2⟩ := ih (r ++ nl :: spaces i ++ replaceNl (nl :: spaces i) (wrapN width 5 (c :: s)).1) (wrapN width 5 (c :: s)).2
        (by
          rcases hlen with e | e
          · rw [e]; simp
          · rw [List.length_cons] at e h; omega)
      refine ⟨out, h1, ?_⟩
      rw [h2, words_nl_spaces, words_replace, List.append_assoc, hw]

theorem wrapMain_spec {fuel i width : Nat} {r s : Bytes} (hf : s.length ≤ fuel) (hr : r = [] ∨ r = nl :: spaces 16) :
    ∃ out, wrapMain fuel i width r s = .ret out ∧ words out = words s := by
  obtain ⟨hw, hlen⟩ := wrapN_spec (width - 5) 5 s
  unfold wrapMain
  obtain ⟨out, h1, h2⟩ := wrapLoop_spec i (width - 5) fuel (r ++ replaceNl (nl :: spaces i) (wrapN (width - 5) 5 s).1)
    (wrapN (width - 5) 5 s).2 (by rcases hlen with e | e; · rw [e]; simp
                                  · omega)
  refine ⟨out, by simp only [h1], ?_⟩
  rw [h2]
  have : words (r ++ replaceNl (nl :: spaces i) (wrapN (width - 5) 5 s).1) = words (wrapN (width - 5) 5 s).1 := by
    rcases hr with rfl | rfl
    · rw [List.nil_append, words_replace]
    · have := words_nl_spaces [] 16 (replaceNl (nl :: spaces i) (wrapN (width - 5) 5 s).1)
      rw [List.nil_append] at this
      rw [this, words_replace]
      simp [words, wordsFrom]
  rw [this, hw]

/-- **C80** For every text, indent that is not negative, and width, `wrap` returns (after at most as many rounds as the text has
bytes), and the result has the same words in the same order: no word is broken, joined with another, lost or invented. -/
theorem C80_words {i w : Int} (hi : 0 ≤ i) (s : Bytes) {fuel : Nat} (hf : s.length ≤ fuel) :
    ∃ out, wrap fuel i w s = .ret out ∧ words out = words s := by
  unfold wrap
  by_cases h1 : w = 0
  · rw [if_pos h1, if_neg (by omega)]
    exact ⟨_, rfl, words_replace _ _⟩
  rw [if_neg h1]
  by_cases h2 : Go.sub64 w i < 24
  · rw [if_pos h2]
    by_cases h3 : Go.sub64 w 16 < 24
    · rw [if_pos h3]
      exact ⟨_, rfl, words_replace _ _⟩
    · rw [if_neg h3]
      exact wrapMain_spec hf (Or.inr rfl)
  · rw [if_neg h2, if_neg (by omega)]
    exact wrapMain_spec hf (Or.inl rfl)

/-- **C80** with width 0 the text is only indented after its newlines -/
theorem C80_no_wrapping {i : Int} (hi : 0 ≤ i) (s : Bytes) (fuel : Nat) : wrap fuel i 0 s = .ret (indented i.toNat s) := by
  unfold wrap
  rw [if_pos rfl, if_neg (by omega)]
  congr 1
  induction s with
  | nil => rfl
  | cons c s ih =>
    unfold replaceNl at ih ⊢
    rw [List.flatMap_cons, indented, ih]
    by_cases h : c = 10
    · rw [if_pos (show c = nl from h), if_pos h, h]; rfl
    · rw [if_neg (show ¬ c = nl from h), if_neg h]; rfl

/-- a negative indent makes the call panic: the hypothesis is needed -/
example : wrap 5 (-1) 80 (List.replicate 5 97) = .panic := by decide +kernel

def sampleText : Bytes := "the quick brown fox jumps over the lazy dog again and again".toUTF8.toList

example : wrap 100 2 31 sampleText = .ret "the quick brown fox\n  jumps over the lazy dog\n  again and again".toUTF8.toList := by decide +kernel

end Cli
