import Verif.Python.PropsStat
/-! C72, with the positions of the bits. -/
namespace Python
open Go

/-- the bits of `fs.FileMode` (given by their position) for the type in the upper four bits of a mode: a named pipe, a character
device, a directory, a block device, a regular file, a symbolic link, a socket; all others are irregular -/
def Spec.typeBits : Nat → List Nat
  | 1 => [25]
  | 2 => [26, 21]
  | 4 => [31]
  | 6 => [26]
  | 8 => []
  | 10 => [27]
  | 12 => [24]
  | _ => [19]

theorem upper (m : StatMode) : m &&& modeFmt = BitVec.ofNat 16 (4096 * (m.toNat / 4096)) := by
  apply BitVec.eq_of_toNat_eq
  have h := m.isLt
  have : (m &&& modeFmt).toNat = 4096 * (m.toNat / 4096) := by
    rw [BitVec.toNat_and, show modeFmt.toNat = 2 ^ 16 - 2 ^ 12 from rfl]
    have h2 : m.toNat &&& (2 ^ 16 - 2 ^ 12) = (m.toNat >>> 12) <<< 12 := by
      apply Nat.eq_of_testBit_eq
      intro i
      rw [Nat.testBit_and, Nat.testBit_shiftLeft, Nat.testBit_shiftRight]
      have hx : (2 ^ 16 - 2 ^ 12 : Nat).testBit i = (decide (12 ≤ i) && decide (i < 16)) := by
        by_cases hi : i < 16
        · revert hi
          have : ∀ j : Fin 16, (2 ^ 16 - 2 ^ 12 : Nat).testBit j.val = (decide (12 ≤ j.val) && decide (j.val < 16)) := by decide
          exact fun hi => this ⟨i, hi⟩
        · rw [Nat.testBit_lt_two_pow (Nat.lt_of_lt_of_le (by decide : 2 ^ 16 - 2 ^ 12 < 2 ^ 16) (Nat.pow_le_pow_right (by decide) (by omega)))]
          simp [hi]
      rw [hx]
      by_cases h12 : 12 ≤ i
      · by_cases h16 : i < 16
        · simp [h12, h16, show 12 + (i - 12) = i by omega]
        · rw [Nat.testBit_lt_two_pow (Nat.lt_of_lt_of_le h (Nat.pow_le_pow_right (by decide) (by omega)))]
          simp [h16, show 12 + (i - 12) = i by omega, Nat.testBit_lt_two_pow (Nat.lt_of_lt_of_le h (Nat.pow_le_pow_right (by decide) (by omega : 16 ≤ i)))]
      · simp [h12]
    rw [h2, Nat.shiftRight_eq_div_pow, Nat.shiftLeft_eq]
    omega
  rw [this, BitVec.toNat_ofNat]
  omega

theorem type_bits (m : StatMode) (i : Fin 32) : (typeToGo (m &&& modeFmt)).getLsbD i.val = decide (i.val ∈ Spec.typeBits (m.toNat / 4096)) := by
  rw [upper]
  have hk : m.toNat / 4096 < 16 := by have := m.isLt; omega
  generalize m.toNat / 4096 = k at hk
  have : ∀ k : Fin 16, ∀ i : Fin 32, (typeToGo (BitVec.ofNat 16 (4096 * k.val))).getLsbD i.val = decide (i.val ∈ Spec.typeBits k.val) := by decide +kernel
  exact this ⟨k, hk⟩ i

theorem bit_set {w : Nat} (a : BitVec w) (i : Nat) : (a &&& BitVec.twoPow w i ≠ 0#w) ↔ a.getLsbD i = true := by
  rw [BitVec.and_twoPow]
  by_cases h : a.getLsbD i = true
  · rw [if_pos h]
    refine iff_of_true ?_ h
    intro hx
    have hi : i < w := BitVec.lt_of_getLsbD h
    have := congrArg (fun b : BitVec w => b.getLsbD i) hx
    simp [hi] at this
  · simp [h]

/-- **C72**, bit by bit: what each bit of the result of `ToGo` is -/
theorem C72_bits (m : StatMode) (i : Nat) : (toGo m).getLsbD i =
    if i < 9 then m.getLsbD i
    else if i = 23 then m.getLsbD 11
    else if i = 22 then m.getLsbD 10
    else if i = 20 then m.getLsbD 9
    else decide (i ∈ Spec.typeBits (m.toNat / 4096)) := by
  by_cases h32 : i < 32
  · have ht := type_bits m ⟨i, h32⟩
    simp only at ht
    have h1 : (modePermSetGID) = BitVec.twoPow 16 10 := by decide
    have h2 : (modePermSetUID) = BitVec.twoPow 16 11 := by decide
    have h3 : (modePermSticky) = BitVec.twoPow 16 9 := by decide
    unfold toGo
    simp only [h1, h2, h3, bit_set]
    rw [BitVec.getLsbD_or, ht]
    have low : ∀ j : Fin 32, (0o777#32).getLsbD j.val = decide (j.val < 9) := by decide
    have hl : ((m &&& 0o777#16).setWidth 32).getLsbD i = (decide (i < 9) && m.getLsbD i) := by
      have e : (m &&& 0o777#16).setWidth 32 = m.setWidth 32 &&& 0o777#32 := by
        rw [BitVec.setWidth_and]; rfl
      rw [e, BitVec.getLsbD_and, low ⟨i, h32⟩, BitVec.getLsbD_setWidth]
      simp [h32, Bool.and_comm]
    have g1 : ∀ j : Fin 32, goSetgid.getLsbD j.val = decide (j.val = 22) := by decide
    have g2 : ∀ j : Fin 32, goSetuid.getLsbD j.val = decide (j.val = 23) := by decide
    have g3 : ∀ j : Fin 32, goSticky.getLsbD j.val = decide (j.val = 20) := by decide
    have key : ∀ k : Fin 16, ∀ j : Fin 32, (j.val < 9 ∨ j.val = 23 ∨ j.val = 22 ∨ j.val = 20) → j.val ∉ Spec.typeBits k.val := by decide +kernel
    have hk : m.toNat / 4096 < 16 := by have := m.isLt; omega
    have key := key ⟨_, hk⟩ ⟨i, h32⟩
    simp only at key
    generalize (m &&& 0o777#16).setWidth 32 = a at hl ⊢
    have q1 := g1 ⟨i, h32⟩
    have q2 := g2 ⟨i, h32⟩
    have q3 := g3 ⟨i, h32⟩
    simp only at q1 q2 q3
    have step : ∀ (b : Bool) (x c : BitVec 32), (if b = true then x ||| c else x).getLsbD i = (x.getLsbD i || (b && c.getLsbD i)) := by
      intro b x c; cases b <;> simp
    rw [step, step, step, q1, q2, q3, hl]
    by_cases a1 : i < 9
    · simp [a1, key (Or.inl a1), show i ≠ 22 by omega, show i ≠ 23 by omega, show i ≠ 20 by omega]
    · by_cases a2 : i = 23
      · simp [a2, a2 ▸ key (Or.inr (Or.inl a2))]
      · by_cases a3 : i = 22
        · simp [a3, a3 ▸ key (Or.inr (Or.inr (Or.inl a3)))]
        · by_cases a4 : i = 20
          · simp [a4, a4 ▸ key (Or.inr (Or.inr (Or.inr a4)))]
          · simp [a1, a2, a3, a4]
  · have hn : i ∉ Spec.typeBits (m.toNat / 4096) := by
      intro hx
      have : ∀ k : Fin 16, ∀ j ∈ Spec.typeBits k.val, j < 32 := by decide +kernel
      have hk : m.toNat / 4096 < 16 := by have := m.isLt; omega
      exact h32 (this ⟨_, hk⟩ i hx)
    rw [BitVec.getLsbD_of_ge _ _ (by omega)]
    simp [hn, show ¬ i < 9 by omega, show i ≠ 23 by omega, show i ≠ 22 by omega, show i ≠ 20 by omega]

/-- a socket that is setuid and sticky -/
example : toGo 0o145750#16 = 0x01900000#32 ||| 0o750#32 ∧ (0o145750#16 : StatMode).toNat / 4096 = 12 := by decide +kernel

end Python
