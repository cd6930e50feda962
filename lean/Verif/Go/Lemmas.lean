import Verif.Go.Basic
/-! Facts about the Go helpers. -/
namespace Go

theorem wrap64_eq {x : Int} (h1 : -2 ^ 63 ≤ x) (h2 : x < 2 ^ 63) : wrap64 x = x := by
  unfold wrap64; apply Int.bmod_eq_of_le <;> omega
theorem wrap32_eq {x : Int} (h1 : -2 ^ 31 ≤ x) (h2 : x < 2 ^ 31) : wrap32 x = x := by
  unfold wrap32; apply Int.bmod_eq_of_le <;> omega
theorem sub64_nonneg {a b : Int} (ha : 0 ≤ a) (ha' : a < 2 ^ 63) (hb : 0 ≤ b) (hb' : b < 2 ^ 63) :
    sub64 a b = a - b := by
  unfold sub64; apply wrap64_eq <;> omega

theorem sub32_nonneg {a b : Int} (ha : 0 ≤ a) (ha' : a < 2 ^ 31) (hb : 0 ≤ b) (hb' : b < 2 ^ 31) :
    sub32 a b = a - b := by
  unfold sub32; apply wrap32_eq <;> omega

theorem wrap32_range (x : Int) : -2 ^ 31 ≤ wrap32 x ∧ wrap32 x < 2 ^ 31 := by
  unfold wrap32
  have h1 := @Int.le_bmod x (2^32) (by decide)
  have h2 := @Int.bmod_lt x (2^32) (by decide)
  omega

theorem ordOf_sub (a b : Int) : ordOf (a - b) = compare a b := by
  unfold ordOf
  rcases Int.lt_trichotomy a b with h | h | h
  · rw [if_pos (by omega)]; exact (Int.compare_eq_lt.2 h).symm
  · subst h; simp
  · rw [if_neg (by omega), if_neg (by omega)]; exact (Int.compare_eq_gt.2 h).symm

theorem isDig_iff {c : Char} : isDig c = true ↔ 48 ≤ c.toNat ∧ c.toNat ≤ 57 := by
  unfold isDig
  simp only [Bool.and_eq_true, decide_eq_true_eq, Char.le_def, UInt32.le_iff_toNat_le]
  exact Iff.rfl

theorem digChar_toNat {n : Nat} (h : n < 10) : (digChar n).toNat = 48 + n := by
  unfold digChar
  have : ('0'.toNat + n).isValidChar := by left; show 48 + n < 0xd800; omega
  rw [Char.ofNat, dif_pos this]
  show ((Char.ofNatAux _ _).val).toNat = _
  simp [Char.ofNatAux]; omega

theorem isDig_digChar {n : Nat} (h : n < 10) : isDig (digChar n) = true := by
  rw [isDig_iff, digChar_toNat h]; omega

theorem digVal_digChar {n : Nat} (h : n < 10) : digVal (digChar n) = n := by
  unfold digVal; rw [digChar_toNat h]; show 48 + n - 48 = n; omega

theorem itoaNat_ne_nil (n : Nat) : itoaNat n ≠ [] := by
  rw [itoaNat]; split <;> simp

theorem itoaNat_all (n : Nat) : (itoaNat n).all isDig = true := by
  induction n using itoaNat.induct with
  | case1 n h => rw [itoaNat, if_pos h]; simp [isDig_digChar h]
  | case2 n h ih =>
    rw [itoaNat, if_neg h, List.all_append, ih]
    simp [isDig_digChar (Nat.mod_lt n (by decide : 10 > 0))]

theorem digitsVal_append (s t : Str) : digitsVal (s ++ t) = digitsVal s * 10 ^ t.length + digitsVal t := by
  unfold digitsVal
  rw [List.foldl_append]
  generalize List.foldl (fun acc c => acc * 10 + digVal c) 0 s = a
  induction t generalizing a with
  | nil => simp
  | cons c t ih =>
    simp only [List.foldl_cons, List.length_cons]
    rw [ih, ih (a := 0 * 10 + digVal c)]
    rw [Nat.pow_succ]; grind

theorem digitsVal_itoaNat (n : Nat) : digitsVal (itoaNat n) = n := by
  induction n using itoaNat.induct with
  | case1 n h => rw [itoaNat, if_pos h]; simp [digitsVal, digVal_digChar h]
  | case2 n h ih =>
    rw [itoaNat, if_neg h, digitsVal_append, ih]
    simp [digitsVal, digVal_digChar (Nat.mod_lt n (by decide : 10 > 0))]
    omega

theorem atoiU_itoaNat (n : Nat) : atoiU (itoaNat n) = some n := by
  unfold atoiU; rw [if_pos ⟨itoaNat_ne_nil n, itoaNat_all n⟩, digitsVal_itoaNat]

theorem atoi_of_digits {s : Str} (h : s.all isDig = true) :
    atoi s = match atoiU s with
      | some n => if n < 2 ^ 63 then some (n : Int) else none
      | none => none := by
  cases s with
  | nil => rfl
  | cons c t =>
    have hc : isDig c = true := by simp [List.all_cons] at h; exact h.1
    unfold atoi
    split
    · rename_i heq; injection heq with h1 h2; subst h1; simp [isDig] at hc
    · rename_i heq; injection heq with h1 h2; subst h1; simp [isDig] at hc
    · rfl

theorem atoi_itoaNat {n : Nat} (h : n < 2 ^ 63) : atoi (itoaNat n) = some (n : Int) := by
  rw [atoi_of_digits (itoaNat_all n), atoiU_itoaNat]; simp [h]

theorem itoa_nonneg {n : Int} (h : 0 ≤ n) : itoa n = itoaNat n.toNat := by
  unfold itoa; rw [if_neg (by omega)]; congr 1; omega

theorem atoi_itoa {n : Int} (h : 0 ≤ n) (h' : n < 2 ^ 63) : atoi (itoa n) = some n := by
  rw [itoa_nonneg h, atoi_itoaNat (by omega)]; congr 1; omega

end Go
