import Verif.Cli.PropsWrap
import Verif.Go.Lemmas
/-! C85: wrapped text fits the width. -/
namespace Cli
open Spec

namespace Spec
/-- no line of the text is longer than `m` bytes -/
def Fits (m : Nat) (out : List UInt8) : Prop := ∀ l, l <:+: out → 10 ∉ l → l.length ≤ m
end Spec

theorem infix_cut {l a b : Bytes} {c : UInt8} (h : l <:+: a ++ c :: b) (hc : c ∉ l) : l <:+: a ∨ l <:+: b := by
  obtain ⟨x, y, e⟩ := h
  rw [List.append_assoc] at e
  rcases List.append_eq_append_iff.mp e with ⟨u, rfl, h2⟩ | ⟨u, rfl, h2⟩
  · rcases List.append_eq_append_iff.mp h2 with ⟨v, rfl, h3⟩ | ⟨v, rfl, h3⟩
    · exact Or.inl ⟨x, v, by simp⟩
    · cases v with
      | nil => exact Or.inl ⟨x, [], by simp⟩
      | cons d v =>
        rw [List.cons_append, List.cons.injEq] at h3
        exact absurd (by simp [h3.1]) hc
  · cases u with
    | nil =>
      rw [List.nil_append] at h2
      cases l with
      | nil => exact Or.inl ⟨a, [], by simp⟩
      | cons d l =>
        rw [List.cons_append, List.cons.injEq] at h2
        exact absurd (by simp [h2.1]) hc
    | cons d u =>
      rw [List.cons_append, List.cons.injEq] at h2
      exact Or.inr ⟨u, y, by rw [List.append_assoc, h2.2]⟩

theorem fits_replace (i : Nat) (t : Bytes) : ∀ p : Bytes, Fits (max p.length i + t.length) (p ++ replaceNl (nl :: spaces i) t) := by
  induction t with
  | nil =>
    intro p l hl _
    have : l <:+: p := by simpa [replaceNl] using hl
    have := this.length_le
    simp only [List.length_nil]
    omega
  | cons c t ih =>
    intro p l hl hn
    unfold replaceNl at hl
    rw [List.flatMap_cons] at hl
    by_cases h : c = nl
    · rw [if_pos h, List.cons_append] at hl
      rcases infix_cut hl hn with h1 | h1
      · have := h1.length_le
        simp only [List.length_cons]
        omega
      · have := ih (spaces i) l h1 hn
        rw [show (spaces i).length = i by simp [spaces]] at this
        simp only [List.length_cons]
        omega
    · rw [if_neg h] at hl
      have := ih (p ++ [c]) l (by simpa [replaceNl] using hl) hn
      simp only [List.length_cons, List.length_append, List.length_nil] at this ⊢
      omega

theorem word_from (v : Bytes) : ∀ cur : Bytes, cur ≠ [] → ∃ wd ∈ wordsFrom cur v, cur.length ≤ wd.length := by
  induction v with
  | nil => intro cur h; exact ⟨cur, by simp [wordsFrom, h], Nat.le_refl _⟩
  | cons c v ih =>
    intro cur h
    rw [wordsFrom]
    split
    · exact ⟨cur, by simp, Nat.le_refl _⟩
    · obtain ⟨wd, h1, h2⟩ := ih (cur ++ [c]) (by simp)
      exact ⟨wd, h1, by rw [List.length_append] at h2; omega⟩

theorem word_run {u : Bytes} (v : Bytes) (hu : ∀ c ∈ u, blank c = false) :
    ∀ cur : Bytes, cur ++ u ≠ [] → ∃ wd ∈ wordsFrom cur (u ++ v), cur.length + u.length ≤ wd.length := by
  induction u with
  | nil =>
    intro cur h
    obtain ⟨wd, h1, h2⟩ := word_from v cur (by simpa using h)
    exact ⟨wd, h1, by simpa using h2⟩
  | cons c u ih =>
    intro cur _
    obtain ⟨wd, h1, h2⟩ := ih (fun d hd => hu d (by simp [hd])) (cur ++ [c]) (by simp)
    refine ⟨wd, ?_, ?_⟩
    · rw [List.cons_append, wordsFrom, if_neg (by rw [hu c (by simp)]; decide)]
      exact h1
    · simp only [List.length_append, List.length_cons, List.length_nil] at h2 ⊢
      omega

theorem lastIndex_none {f : UInt8 → Bool} {s : Bytes} (h : lastIndex f s = none) : ∀ c ∈ s, f c = false := by
  induction s with
  | nil => simp
  | cons c s ih =>
    rw [lastIndex] at h
    cases h1 : lastIndex f s with
    | some j => rw [h1] at h; cases h
    | none =>
      rw [h1] at h
      simp only at h
      by_cases hf : f c = true
      · rw [if_pos hf] at h; cases h
      · intro d hd
        rcases List.mem_cons.mp hd with rfl | hd
        · exact Bool.eq_false_iff.mpr hf
        · exact ih h1 d hd

/-- if the first `n` bytes have no blank but maybe the first one, there is a long word -/
theorem long_word {n : Nat} {s : Bytes} (hn : 2 ≤ n) (hs : n ≤ s.length)
    (h : ∀ w, lastIndex blank (s.take n) = some w → w = 0) : ∃ wd ∈ words s, n - 1 ≤ wd.length := by
  cases s with
  | nil => simp at hs; omega
  | cons c s =>
    obtain ⟨m, rfl⟩ : ∃ m, n = m + 1 := ⟨n - 1, by omega⟩
    rw [List.take_succ_cons] at h
    have hs' : m ≤ s.length := by simpa using hs
    have hu : ∀ d ∈ s.take m, blank d = false := by
      refine lastIndex_none ?_
      cases h1 : lastIndex blank (s.take m) with
      | none => rfl
      | some j => exact absurd (h (j + 1) (by rw [lastIndex, h1])) (by omega)
    have hlen : (s.take m).length = m := by rw [List.length_take]; omega
    have e : s = s.take m ++ s.drop m := (List.take_append_drop m s).symm
    have hne : s.take m ≠ [] := by intro e; rw [e] at hlen; simp at hlen; omega
    unfold words
    rw [wordsFrom]
    split
    · obtain ⟨wd, h1, h2⟩ := word_run (s.drop m) hu [] (by simpa using hne)
      rw [← e] at h1
      exact ⟨wd, by simp [h1], by simp [hlen] at h2; omega⟩
    · obtain ⟨wd, h1, h2⟩ := word_run (s.drop m) hu ([] ++ [c]) (by simp)
      rw [← e] at h1
      exact ⟨wd, h1, by simp [hlen] at h2; omega⟩

theorem wrapN_length {n : Nat} (hn : 2 ≤ n) {s : Bytes} (hw : ∀ wd ∈ words s, wd.length + 2 ≤ n) : (wrapN n 5 s).1.length ≤ n + 4 := by
  unfold wrapN
  split
  · simp only; omega
  · rename_i hl
    have key : ∃ w, lastIndex blank (s.take n) = some w ∧ w ≠ 0 := by
      refine Classical.byContradiction fun hc => ?_
      obtain ⟨wd, h1, h2⟩ := long_word (n := n) hn (by omega) (fun w hw => Classical.byContradiction fun h0 => hc ⟨w, hw, h0⟩)
      have := hw wd h1
      omega
    obtain ⟨w, h1, h2⟩ := key
    have h1' : lastIndex (fun c => c = sp || c = tab || c = nl) (s.take n) = some w := h1
    rw [h1']
    simp only [if_neg h2]
    have hlt : w < n := by
      obtain ⟨_, _, _, h3⟩ := lastIndex_some h1
      rw [List.length_take] at h3
      omega
    split
    · split
      · simp only [List.length_take]; omega
      · simp only [List.length_take]; omega
    · simp only [List.length_take]; omega

theorem wrapLoop_fits {i n M : Nat} (hn : 2 ≤ n) (hM : i + n + 4 ≤ M) : ∀ (fuel : Nat) (r s out : Bytes),
    (∀ wd ∈ words s, wd.length + 2 ≤ n) → Fits M r → wrapLoop i n fuel r s = some out → Fits M out := by
  intro fuel
  induction fuel with
  | zero =>
    intro r s out _ hr h
    cases s with
    | nil => simp only [wrapLoop] at h; cases h; exact hr
    | cons c s => simp [wrapLoop] at h
  | succ fuel ih =>
    intro r s out hw hr h
    cases s with
    | nil => simp only [wrapLoop] at h; cases h; exact hr
    | cons c s =>
      rw [wrapLoop] at h
      refine ih _ _ out ?_ ?_ h
      · intro wd hwd
        refine hw wd ?_
        rw [← (wrapN_spec n 5 (c :: s)).1]
        exact List.mem_append_right _ hwd
      · intro l hl hnl
        rw [List.append_assoc, List.cons_append] at hl
        rcases infix_cut hl hnl with h1 | h1
        · exact hr l h1 hnl
        · have h2 := fits_replace i (wrapN n 5 (c :: s)).1 (spaces i) l h1 hnl
          have h3 := wrapN_length hn hw
          rw [show (spaces i).length = i by simp [spaces]] at h2
          omega

theorem wrapLoop_prefix (i n : Nat) (p : Bytes) : ∀ (fuel : Nat) (r s out : Bytes),
    wrapLoop i n fuel r s = some out → wrapLoop i n fuel (p ++ r) s = some (p ++ out) := by
  intro fuel
  induction fuel with
  | zero =>
    intro r s out h
    cases s with
    | nil => simp only [wrapLoop] at h ⊢; cases h; rfl
    | cons c s => simp [wrapLoop] at h
  | succ fuel ih =>
    intro r s out h
    cases s with
    | nil => simp only [wrapLoop] at h ⊢; cases h; rfl
    | cons c s =>
      rw [wrapLoop] at h ⊢
      have := ih _ _ _ h
      simpa only [List.append_assoc] using this

theorem wrapMain_fits {fuel i width M : Nat} {p r s out : Bytes} (hn : 7 ≤ width) (hM : i + width ≤ M)
    (hr : r = [] ∧ p.length ≤ i ∨ r = nl :: spaces i ∧ p.length ≤ M)
    (hw : ∀ wd ∈ words s, wd.length + 7 ≤ width) (h : wrapMain fuel i width r s = .ret out) : Fits M (p ++ out) := by
  unfold wrapMain at h
  cases h1 : wrapLoop i (width - 5) fuel (r ++ replaceNl (nl :: spaces i) (wrapN (width - 5) 5 s).1) (wrapN (width - 5) 5 s).2 with
  | none => simp only [h1] at h; cases h
  | some o =>
    simp only [h1] at h
    cases h
    have hw' : ∀ wd ∈ words s, wd.length + 2 ≤ width - 5 := by intro wd hwd; have := hw wd hwd; omega
    have hl := wrapN_length (n := width - 5) (by omega) hw'
    refine wrapLoop_fits (by omega) (by omega) fuel _ _ (p ++ out) ?_ ?_ (wrapLoop_prefix i (width - 5) p fuel _ _ _ h1)
    · intro wd hwd
      refine hw' wd ?_
      rw [← (wrapN_spec (width - 5) 5 s).1]
      exact List.mem_append_right _ hwd
    · intro l hl' hnl
      rcases hr with ⟨rfl, hp⟩ | ⟨rfl, hp⟩
      · have := fits_replace i (wrapN (width - 5) 5 s).1 p l hl' hnl
        omega
      · rcases infix_cut hl' hnl with h2 | h2
        · have := h2.length_le; omega
        · have := fits_replace i (wrapN (width - 5) 5 s).1 (spaces i) l h2 hnl
          rw [show (spaces i).length = i by simp [spaces]] at this
          omega

/-- **C85** If there is room for at least 24 columns next to the indent, and no word is so long that it takes up all but six of
them, then no line of the wrapped text (with its indent) is longer than the width; `p` is what the caller printed before it, up to
the indent. -/
theorem C85_fits {i w : Nat} {fuel : Nat} {p s out : Bytes} (hint : w < 2 ^ 63) (hroom : i + 24 ≤ w) (hp : p.length ≤ i)
    (hw : ∀ wd ∈ words s, wd.length + i + 7 ≤ w) (h : wrap fuel i w s = .ret out) : Fits w (p ++ out) := by
  unfold wrap at h
  rw [Go.sub64_nonneg (by omega) (by omega) (by omega) (by omega), if_neg (by omega), if_neg (by omega), if_neg (by omega),
    show ((w : Int) - i).toNat = w - i by omega, Int.toNat_natCast] at h
  exact wrapMain_fits (by omega) (by omega) (Or.inl ⟨rfl, hp⟩) (fun wd hwd => by have := hw wd hwd; omega) h

/-- **C85** With less room than that, the text is put below, indented by 16, if that leaves 24 columns: the same holds. -/
theorem C85_fits_block {i w : Nat} {fuel : Nat} {p s out : Bytes} (hi : i < 2 ^ 63) (hint : w < 2 ^ 63) (hroom : w < i + 24) (h40 : 40 ≤ w)
    (hp : p.length ≤ w) (hw : ∀ wd ∈ words s, wd.length + 23 ≤ w) (h : wrap fuel i w s = .ret out) : Fits w (p ++ out) := by
  unfold wrap at h
  rw [Go.sub64_nonneg (by omega) (by omega) (by omega) (by omega), Go.sub64_nonneg (by omega) (by omega) (by omega) (by omega),
    if_neg (by omega), if_pos (by omega), if_neg (by omega), show ((w : Int) - 16).toNat = w - 16 by omega] at h
  exact wrapMain_fits (by omega) (by omega) (Or.inr ⟨rfl, hp⟩) (fun wd hwd => by have := hw wd hwd; omega) h

/-- the limit on the words is needed: after a word that takes up all but five columns nothing is wrapped any more -/
theorem C85_long_word : ∃ (s out : Bytes), (∀ wd ∈ words s, wd.length + 0 + 6 ≤ 24) ∧ wrap 100 0 24 s = .ret out ∧ ¬ Fits 24 out :=
  ⟨List.replicate 1 32 ++ List.replicate 18 97 ++ [32] ++ List.replicate 9 98, List.replicate 1 32 ++ List.replicate 18 97 ++ [32] ++ List.replicate 9 98,
    by decide +kernel, by decide +kernel,
    fun h => absurd (h _ (List.infix_rfl) (by decide +kernel)) (by decide +kernel)⟩

example : (∀ wd ∈ words sampleText, wd.length + 2 + 7 ≤ 31) ∧
    wrap 100 2 31 sampleText = .ret "the quick brown fox\n  jumps over the lazy dog\n  again and again".toUTF8.toList := by decide +kernel

example : (∀ wd ∈ words sampleText, wd.length + 23 ≤ 44) ∧ ∃ out, wrap 100 30 44 sampleText = .ret out := by
  refine ⟨by decide +kernel, ?_⟩
  obtain ⟨out, h, _⟩ := C80_words (i := 30) (w := 44) (by omega) sampleText (fuel := 100) (by decide +kernel)
  exact ⟨out, h⟩

end Cli
