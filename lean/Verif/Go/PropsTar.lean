import Verif.Go.Tar
import Verif.Go.PathLemmas
/-! Which names fit into a USTAR header, and that cleaning a name leaves it fitting. -/
namespace Go.Tar
open Go

namespace Spec

/-- characters of a plain USTAR header -/
def Ascii (s : Str) : Prop := ∀ c ∈ s, 0 < c.toNat ∧ c.toNat < 128

/-- POSIX: a name of at most 100 characters, or one that can be cut at a slash into at most 155 characters and at most 100 -/
def Ustar (s : Str) : Prop :=
  Ascii s ∧ (s.length ≤ 100 ∨ ∃ p n, s = p ++ '/' :: n ∧ p ≠ [] ∧ n ≠ [] ∧ p.length ≤ 155 ∧ n.length ≤ 100)

end Spec

theorem isASCII_iff {s : Str} : isASCII s = true ↔ Spec.Ascii s := by
  unfold isASCII Spec.Ascii
  simp only [List.all_eq_true, Bool.and_eq_true, decide_eq_true_eq]
  constructor
  · intro h c hc; obtain ⟨h1, h2⟩ := h c hc; omega
  · intro h c hc; obtain ⟨h1, h2⟩ := h c hc; omega

theorem lastSlash_some {s : Str} {i : Nat} (h : lastSlash s = some i) : ∃ p n, s = p ++ '/' :: n ∧ p.length = i ∧ '/' ∉ n := by
  induction s generalizing i with
  | nil => cases h
  | cons c s ih =>
    rw [lastSlash] at h
    cases hs : lastSlash s with
    | some j =>
      rw [hs] at h
      obtain ⟨p, n, h1, h2, h3⟩ := ih hs
      injection h with h
      exact ⟨c :: p, n, by rw [h1]; rfl, by simp [h2, h], h3⟩
    | none =>
      rw [hs] at h
      simp only at h
      split at h
      · rename_i hc
        injection h with h
        refine ⟨[], s, by rw [hc]; rfl, h, ?_⟩
        clear ih h
        induction s with
        | nil => simp
        | cons d s ih =>
          rw [lastSlash] at hs
          cases h2 : lastSlash s with
          | some j => rw [h2] at hs; cases hs
          | none =>
            rw [h2] at hs
            simp only at hs
            split at hs
            · cases hs
            · rename_i hd
              simp only [List.mem_cons, not_or]
              exact ⟨fun e => hd e.symm, ih h2⟩
      · cases h

theorem lastSlash_none {s : Str} (h : lastSlash s = none) : '/' ∉ s := by
  induction s with
  | nil => simp
  | cons d s ih =>
    rw [lastSlash] at h
    cases h2 : lastSlash s with
    | some j => rw [h2] at h; cases h
    | none =>
      rw [h2] at h
      simp only at h
      split at h
      · cases h
      · rename_i hd
        simp only [List.mem_cons, not_or]
        exact ⟨fun e => hd e.symm, ih h2⟩

/-- the part of the name that is searched -/
def area (s : Str) : Nat := if 156 < s.length then 156 else if s.getLast? = some '/' then s.length - 1 else s.length

theorem area_le (s : Str) : area s ≤ s.length := by
  unfold area; split
  · omega
  · split <;> omega

theorem area_has {p n : Str} (hn : n ≠ []) (hp : p.length ≤ 155) : p.length < area (p ++ '/' :: n) := by
  have hl : (p ++ '/' :: n).length = p.length + n.length + 1 := by simp; omega
  have : 0 < n.length := List.length_pos_iff.mpr hn
  unfold area
  split
  · omega
  · split <;> omega

/-- what `splitUSTARPath` decides -/
theorem splitUSTAR_iff (s : Str) : (splitUSTAR s).isSome = true ↔
    100 < s.length ∧ Spec.Ascii s ∧ ∃ p n, s = p ++ '/' :: n ∧ p ≠ [] ∧ n ≠ [] ∧ p.length ≤ 155 ∧ n.length ≤ 100 := by
  unfold splitUSTAR
  by_cases hlen : s.length ≤ 100
  · rw [if_pos (by simp [hlen])]
    constructor
    · intro h; cases h
    · rintro ⟨h, _⟩; omega
  by_cases ha : isASCII s = true
  case neg =>
    rw [if_pos (by simp [ha])]
    constructor
    · intro h; cases h
    · rintro ⟨_, h, _⟩; exact absurd (isASCII_iff.mpr h) ha
  rw [if_neg (by simp [hlen, ha])]
  have ha' := isASCII_iff.mp ha
  show (match lastSlash (s.take (area s)) with
    | none => none
    | some i => if (decide (i = 0) || decide (100 < s.length - i - 1) || decide (s.length - i - 1 = 0) || decide (155 < i)) = true then none
      else some (s.take i, s.drop (i + 1)) : Option (Str × Str)).isSome = true ↔ _
  cases hs : lastSlash (s.take (area s)) with
  | none =>
    have hno := lastSlash_none hs
    constructor
    · intro h; cases h
    · rintro ⟨_, _, p, n, rfl, h1, h2, h3, h4⟩
      exfalso
      apply hno
      have := area_has (p := p) h2 h3
      rw [List.take_append]
      refine List.mem_append_right _ ?_
      obtain ⟨k, hk⟩ : ∃ k, area (p ++ '/' :: n) - p.length = k + 1 := ⟨area (p ++ '/' :: n) - p.length - 1, by omega⟩
      rw [hk, List.take_succ_cons]
      exact List.mem_cons_self
  | some i =>
    obtain ⟨p, n, h1, h2, h3⟩ := lastSlash_some hs
    have hs' : s = p ++ '/' :: (n ++ s.drop (area s)) := by
      conv => lhs; rw [← List.take_append_drop (area s) s, h1]
      simp
    have hl : s.length - i - 1 = (n ++ s.drop (area s)).length := by
      have := congrArg List.length hs'
      rw [List.length_append, List.length_cons] at this
      omega
    simp only
    constructor
    · intro h
      split at h
      · cases h
      · rename_i hc
        simp only [Bool.or_eq_true, decide_eq_true_eq, not_or] at hc
        refine ⟨by omega, ha', p, n ++ s.drop (area s), hs', ?_, ?_, by omega, by omega⟩
        · intro e; rw [e] at h2; exact hc.1.1.1 h2.symm
        · intro e; rw [e] at hl; exact hc.1.2 hl
    · rintro ⟨_, _, p', n', g1, g2, g3, g4, g5⟩
      have hlt : p'.length < area s := by rw [g1]; exact area_has g3 g4
      have hge : p'.length ≤ i := by
        false_or_by_contra
        rename_i hlt'
        -- the slash of the other cut would lie in n
        have e : s.take (area s) = p ++ '/' :: n := h1
        have hm : (s.take (area s))[p'.length]? = some '/' := by
          rw [List.getElem?_take_of_lt hlt]
          conv => lhs; rw [g1]
          rw [List.getElem?_append_right (Nat.le_refl _)]
          simp
        rw [e, List.getElem?_append_right (by omega)] at hm
        obtain ⟨k, hk⟩ : ∃ k, p'.length - p.length = k + 1 := ⟨p'.length - p.length - 1, by omega⟩
        rw [hk, List.getElem?_cons_succ] at hm
        exact h3 (List.mem_of_getElem? hm)
      have hlen' : s.length = p'.length + n'.length + 1 := by rw [g1]; simp; omega
      have hilt : i < area s := by
        have := congrArg List.length h1
        rw [List.length_take, List.length_append, List.length_cons] at this
        have := area_le s
        omega
      have hp'0 : 0 < p'.length := List.length_pos_iff.mpr g2
      have h155 : i ≤ 155 := by
        have : area s ≤ 156 := by unfold area; split; · omega
                                  · split <;> omega
        omega
      have hn0 : s.length - i - 1 ≠ 0 := by
        intro e0
        -- i is the last position
        have := area_le s
        have hi : i = s.length - 1 := by omega
        have hlast : s.getLast? = some '/' := by
          rw [List.getLast?_eq_getElem?, ← hi, hs', ← h2, List.getElem?_append_right (Nat.le_refl _)]
          simp
        unfold area at hilt
        rw [hlast] at hilt
        simp only [if_true] at hilt
        split at hilt <;> omega
      rw [if_neg]
      · rfl
      · simp only [Bool.or_eq_true, decide_eq_true_eq, not_or]
        refine ⟨⟨⟨by omega, by omega⟩, hn0⟩, by omega⟩

/-- **C128**, the writer (archive/tar): it takes a name for a USTAR header exactly if it fits by the rule of POSIX -/
theorem C128_ustar (s : Str) : nameFits .ustar s = true ↔ Spec.Ustar s := by
  unfold nameFits Spec.Ustar
  simp only [Bool.or_eq_true, Bool.and_eq_true, decide_eq_true_eq, isASCII_iff, splitUSTAR_iff]
  constructor
  · rintro (⟨h1, h2⟩ | ⟨h1, h2, h3⟩)
    · exact ⟨h1, .inl h2⟩
    · exact ⟨h2, .inr h3⟩
  · rintro ⟨h1, h2⟩
    by_cases h : s.length ≤ 100
    · exact .inl ⟨h1, h⟩
    · rcases h2 with h2 | h2
      · exact absurd h2 h
      · exact .inr ⟨by omega, h1, h2⟩

/-- cut at the only place that will do; too long behind the slash; a slash at the end does not count -/
example : nameFits .ustar (List.replicate 155 'p' ++ '/' :: List.replicate 100 'n') = true ∧
    nameFits .ustar (List.replicate 155 'p' ++ '/' :: List.replicate 101 'n') = false ∧
    nameFits .ustar (List.replicate 100 'n' ++ ['/']) = false ∧ nameFits .pax (List.replicate 100 'n' ++ ['/']) = true := by decide +kernel

/-- in the other formats any name without NUL can be written -/
theorem nameFits_other {f : Format} (hf : f ≠ .ustar) {s : Str} (h : ∀ c ∈ s, c.toNat ≠ 0) : nameFits f s = true := by
  have : hasNUL s = false := by
    unfold hasNUL
    rw [List.any_eq_false]
    intro c hc
    simpa using h c hc
  unfold nameFits
  rw [this]
  cases f <;> simp_all

/-! ### Cleaning -/

/-- the length of the elements with a slash behind each -/
def width (cs : List Str) : Nat := (cs.map fun c => c.length + 1).sum

@[simp] theorem width_nil : width [] = 0 := rfl
@[simp] theorem width_cons (c : Str) (cs : List Str) : width (c :: cs) = c.length + 1 + width cs := by simp [width]
theorem width_append (a b : List Str) : width (a ++ b) = width a + width b := by simp [width]
theorem width_reverse (a : List Str) : width a.reverse = width a := by
  induction a with
  | nil => rfl
  | cons c a ih => rw [List.reverse_cons, width_append, ih]; simp; omega

theorem length_join {cs : List Str} (h : cs ≠ []) : (join ['/'] cs).length + 1 = width cs := by
  induction cs with
  | nil => exact absurd rfl h
  | cons c cs ih =>
    cases cs with
    | nil => simp [join]
    | cons d cs =>
      have := ih (by simp)
      rw [width_cons, ← this]
      simp only [join, List.length_append, List.length_singleton]
      omega

theorem width_split (s : Str) : width (split '/' s) = s.length + 1 := by
  rw [← length_join (split_ne_nil '/' s), join_split]

theorem join_append {a b : List Str} (ha : a ≠ []) (hb : b ≠ []) : join ['/'] (a ++ b) = join ['/'] a ++ '/' :: join ['/'] b := by
  induction a with
  | nil => exact absurd rfl ha
  | cons c a ih =>
    cases a with
    | nil => cases b with
      | nil => exact absurd rfl hb
      | cons d b => simp [join]
    | cons d a =>
      have := ih (by simp)
      simp only [List.cons_append, join] at this ⊢
      rw [this]
      simp

/-- going on cleaning from the elements `st` (last first): some of them are kept, and what is new is no longer than what it was made of -/
theorem foldl_width (rooted : Bool) : ∀ (bs st : List Str), ∃ x y, bs.foldl (cleanStep rooted) st = x ++ y ∧ y <:+ st ∧
    width x + bs.count [] ≤ width bs ∧ ∀ c ∈ x, c ∈ bs := by
  have gen : ∀ (bs st x0 y0 : List Str), st = x0 ++ y0 → ∃ x y, bs.foldl (cleanStep rooted) st = x ++ y ∧ y <:+ y0 ∧
      width x + bs.count [] ≤ width bs + width x0 ∧ ∀ c ∈ x, c ∈ bs ∨ c ∈ x0 := by
    intro bs
    induction bs with
    | nil => intro st x0 y0 h; exact ⟨x0, y0, h, List.suffix_refl _, by simp, fun c hc => .inr hc⟩
    | cons b bs ih =>
      intro st x0 y0 h
      rw [List.foldl_cons]
      by_cases hb : b = []
      · obtain ⟨x, y, h1, h2, h3, h4⟩ := ih st x0 y0 h
        refine ⟨x, y, by rw [← h1, hb]; rfl, h2, ?_, fun c hc => (h4 c hc).imp (List.mem_cons_of_mem _) id⟩
        rw [hb, List.count_cons_self, width_cons]; simp; omega
      · have hcnt : (b :: bs).count [] = bs.count [] := by rw [List.count_cons]; simp [hb]
        have keep : ∀ x1 y1, cleanStep rooted st b = x1 ++ y1 → y1 <:+ y0 → width x1 ≤ b.length + 1 + width x0 → (∀ c ∈ x1, c = b ∨ c ∈ x0) →
            ∃ x y, bs.foldl (cleanStep rooted) (cleanStep rooted st b) = x ++ y ∧ y <:+ y0 ∧
              width x + (b :: bs).count [] ≤ width (b :: bs) + width x0 ∧ ∀ c ∈ x, c ∈ b :: bs ∨ c ∈ x0 := by
          intro x1 y1 e1 e2 e3 e4
          obtain ⟨x, y, h1, h2, h3, h4⟩ := ih _ x1 y1 e1
          refine ⟨x, y, h1, h2.trans e2, by rw [hcnt, width_cons]; omega, ?_⟩
          intro c hc
          rcases h4 c hc with h5 | h5
          · exact .inl (List.mem_cons_of_mem _ h5)
          · rcases e4 c h5 with h6 | h6
            · exact .inl (by rw [h6]; exact List.mem_cons_self)
            · exact .inr h6
        by_cases hd : b = ['.']
        · exact keep x0 y0 (by unfold cleanStep; rw [if_pos (.inr hd)]; exact h) (List.suffix_refl _) (by omega) (fun c hc => .inr hc)
        by_cases hdd : b = ['.', '.']
        · subst hdd
          cases st with
          | nil =>
            have hx0 : x0 = [] := (List.append_eq_nil_iff.mp h.symm).1
            cases rooted with
            | true => exact keep [] [] (by simp [cleanStep]) (List.nil_suffix) (by simp) (by simp)
            | false => exact keep [['.', '.']] [] (by simp [cleanStep]) (List.nil_suffix) (by simp) (by simp)
          | cons d ds =>
            by_cases hd2 : d = ['.', '.']
            · exact keep (['.', '.'] :: x0) y0 (by rw [List.cons_append, ← h, hd2]; simp [cleanStep]) (List.suffix_refl _) (by simp) (by simp)
            · have hstep : cleanStep rooted (d :: ds) ['.', '.'] = ds := by simp [cleanStep, hd2]
              cases x0 with
              | nil =>
                exact keep [] ds (by rw [hstep]; rfl) (by rw [← (show d :: ds = y0 from h)]; exact List.suffix_cons _ _) (by simp) (by simp)
              | cons e x0 =>
                rw [List.cons_append] at h
                injection h with h0 h
                exact keep x0 y0 (by rw [hstep, h]) (List.suffix_refl _) (by simp; omega) (fun c hc => .inr (List.mem_cons_of_mem _ hc))
        · refine keep (b :: x0) y0 ?_ (List.suffix_refl _) (by simp) (by simp)
          unfold cleanStep; rw [if_neg (by simp [hb, hd]), if_neg hdd, h]; rfl
  intro bs st
  obtain ⟨x, y, h1, h2, h3, h4⟩ := gen bs st [] st rfl
  exact ⟨x, y, h1, h2, by simpa using h3, fun c hc => (h4 c hc).elim id (by simp)⟩

theorem cleanElems_width (rooted : Bool) (a b : List Str) : ∃ y x, cleanElems rooted (a ++ b) = y ++ x ∧ width y + (if x = [] then a.count [] else 0) ≤ width a ∧
    width x + b.count [] ≤ width b ∧ (∀ c ∈ y, c ∈ a) ∧ ∀ c ∈ x, c ∈ b := by
  unfold cleanElems
  rw [List.foldl_append]
  obtain ⟨x0, y0, h1, h2, h3, h4⟩ := foldl_width rooted a []
  obtain ⟨x, y, g1, g2, g3, g4⟩ := foldl_width rooted b (a.foldl (cleanStep rooted) [])
  have hy0 : y0 = [] := List.suffix_nil.mp h2
  rw [h1, hy0, List.append_nil] at g2
  have hyw : width y ≤ width x0 := by
    obtain ⟨t, ht⟩ := g2
    rw [← ht, width_append]; omega
  refine ⟨y.reverse, x.reverse, by rw [g1, List.reverse_append], ?_, by rw [width_reverse]; exact g3, ?_, ?_⟩
  · rw [width_reverse]; split <;> omega
  · intro c hc
    exact h4 c (g2.subset (List.mem_reverse.mp hc))
  · intro c hc
    exact g4 c (List.mem_reverse.mp hc)

theorem mem_join {cs : List Str} {d : Char} (h : d ∈ join ['/'] cs) : d = '/' ∨ ∃ c ∈ cs, d ∈ c := by
  induction cs with
  | nil => simp [join] at h
  | cons c cs ih =>
    cases cs with
    | nil => exact .inr ⟨c, by simp, by simpa [join] using h⟩
    | cons e cs =>
      simp only [join, List.mem_append, List.mem_singleton] at h
      rcases h with (h | h) | h
      · exact .inr ⟨c, by simp, h⟩
      · exact .inl h
      · rcases ih h with h | ⟨x, h1, h2⟩
        · exact .inl h
        · exact .inr ⟨x, by simp at h1 ⊢; exact .inr h1, h2⟩

theorem count_split_slash (s : Str) : 1 ≤ (split '/' (s ++ ['/'])).count [] := by
  rw [split_append, List.count_append]
  simp [split]

/-- If a name fits and has no element that is too long, it still fits when cleaned; for a name that ends in a slash also with that slash. -/
theorem ustar_clean {t tail : Str} (hr : isRooted t = false) (ht : tail = [] ∨ tail = ['/'] ∧ ∃ t', t = t' ++ ['/'])
    (hu : Spec.Ustar t) (hc : ∀ c ∈ split '/' t, c.length + tail.length ≤ 100) : Spec.Ustar (clean t ++ tail) := by
  have hlt : tail.length ≤ 1 := by rcases ht with h | ⟨h, _⟩ <;> simp [h]
  have hshort : ∀ c ∈ cleanElems false (split '/' t), c ∈ split '/' t := by
    obtain ⟨y, x, h1, _, _, h4, h5⟩ := cleanElems_width false [] (split '/' t)
    rw [List.nil_append] at h1
    rw [h1]
    intro c h
    rcases List.mem_append.mp h with h | h
    · exact absurd (h4 c h) (by simp)
    · exact h5 c h
  have hne : ∀ c ∈ cleanElems false (split '/' t), c ≠ [] :=
    fun c h => ((cleanElems_ok (rooted := false) (fun c hc => split_no_sep hc)).elem c h).1
  unfold clean
  rw [hr]
  constructor
  · intro d hd
    rcases List.mem_append.mp hd with hd | hd
    · unfold render at hd
      simp only [Bool.false_eq_true, if_false] at hd
      split at hd
      · rw [List.mem_singleton.mp hd]; decide
      · rcases mem_join hd with rfl | ⟨c, h1, h2⟩
        · decide
        · exact hu.1 d (mem_split (hshort c h1) d h2).1
    · rcases ht with h | ⟨h, _⟩
      · rw [h] at hd; simp at hd
      · rw [h] at hd; rw [List.mem_singleton.mp hd]; decide
  · generalize hcs : cleanElems false (split '/' t) = cs at *
    unfold render
    simp only [Bool.false_eq_true, if_false]
    by_cases hnil : cs = []
    · rw [if_pos hnil]; left; simp; omega
    rw [if_neg hnil]
    have hj := length_join hnil
    rcases hu.2 with hl | ⟨p, n, rfl, hp, hn, hp2, hn2⟩
    · left
      obtain ⟨y, x, h1, h2, h3, h4, _⟩ := cleanElems_width false [] (split '/' t)
      have hy : y = [] := by
        cases y with
        | nil => rfl
        | cons c y => exact absurd (h4 c (by simp)) (by simp)
      rw [hy, List.nil_append, List.nil_append, hcs] at h1
      rw [← h1, width_split] at h3
      rw [List.length_append]
      have : tail.length ≤ (split '/' t).count [] := by
        rcases ht with h | ⟨h, t', h'⟩
        · simp [h]
        · rw [h, h']; exact count_split_slash t'
      omega
    · obtain ⟨y, x, h1, h2, h3, h4, h5⟩ := cleanElems_width false (split '/' p) (split '/' n)
      rw [← split_append, hcs] at h1
      rw [width_split] at h2 h3
      have hcount : tail.length ≤ (split '/' n).count [] := by
        rcases ht with h | ⟨h, t', h'⟩
        · simp [h]
        · rw [h]
          obtain ⟨n', d, rfl⟩ : ∃ n' d, n = n' ++ [d] := ⟨n.dropLast, n.getLast hn, (List.dropLast_concat_getLast hn).symm⟩
          have hd : d = '/' := by
            have e : (p ++ '/' :: n') ++ [d] = t' ++ ['/'] := by rw [← h']; simp
            have := congrArg List.getLast? e
            rw [List.getLast?_concat, List.getLast?_concat] at this
            injection this
          rw [hd]; exact count_split_slash n'
      by_cases hx : x = []
      · rw [hx, List.append_nil] at h1
        rw [if_pos hx, ← h1] at h2
        by_cases hl : (join ['/'] cs ++ tail).length ≤ 100
        · exact .inl hl
        · right
          rw [List.length_append] at hl
          obtain ⟨y', c, rfl⟩ : ∃ y' c, cs = y' ++ [c] := ⟨cs.dropLast, cs.getLast hnil, (List.dropLast_concat_getLast hnil).symm⟩
          have hcl := hc c (hshort c (by simp))
          have hy' : y' ≠ [] := by
            intro e
            rw [e] at hl
            simp [join] at hl
            omega
          rw [join_append hy' (by simp)]
          refine ⟨join ['/'] y', c ++ tail, by simp [join], join_ne_nil hy' (fun d hd => hne d (by simp [hd])), ?_, ?_, ?_⟩
          · intro e; exact hne c (by simp) (List.append_eq_nil_iff.mp e).1
          · have := length_join hy'
            rw [width_append] at h2
            omega
          · rw [List.length_append]; exact hcl
      · by_cases hy : y = []
        · left
          rw [hy, List.nil_append] at h1
          rw [← h1] at h3
          rw [List.length_append]
          omega
        · right
          have jy := length_join hy
          have jx := length_join hx
          refine ⟨join ['/'] y, join ['/'] x ++ tail, by rw [h1, join_append hy hx]; simp, ?_, ?_, ?_, ?_⟩
          · exact join_ne_nil hy (fun d hd => hne d (by rw [h1]; simp [hd]))
          · intro e
            exact join_ne_nil hx (fun d hd => hne d (by rw [h1]; simp [hd])) (List.append_eq_nil_iff.mp e).1
          · rw [if_neg hx] at h2; omega
          · rw [List.length_append]; omega

end Go.Tar
