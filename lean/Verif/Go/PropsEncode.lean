import Verif.Go.Encode
/-! The texts of `Verif/Go/Encode.lean` determine the bytes they stand for. -/
namespace Go.Encode
open Go

namespace Spec

/-- the value of a digit in the URL-safe alphabet of RFC 4648, table 2 -/
def value (c : Char) : Option Nat :=
  if 'A' ≤ c ∧ c ≤ 'Z' then some (c.toNat - 'A'.toNat)
  else if 'a' ≤ c ∧ c ≤ 'z' then some (c.toNat - 'a'.toNat + 26)
  else if '0' ≤ c ∧ c ≤ '9' then some (c.toNat - '0'.toNat + 52)
  else if c = '-' then some 62
  else if c = '_' then some 63
  else none

/-- the lowest `w` bits of a number, the highest first -/
def bits (w n : Nat) : List Bool := (List.range w).map fun i => n.testBit (w - 1 - i)

/-- the text is base64 (URL-safe, without padding) for the bytes: its digits, of six bits each, give the bits of the bytes and then fewer
than six zeros -/
def Base64 (text : Str) (bytes : List UInt8) : Prop :=
  ∃ values : List Nat, text.map value = values.map some ∧ ∃ k < 6,
    values.flatMap (bits 6) = bytes.flatMap (fun b => bits 8 b.toNat) ++ List.replicate k false

/-- the value of a hexadecimal digit, of which the letters are small -/
def hexValue (c : Char) : Option Nat :=
  if '0' ≤ c ∧ c ≤ '9' then some (c.toNat - '0'.toNat)
  else if 'a' ≤ c ∧ c ≤ 'f' then some (c.toNat - 'a'.toNat + 10)
  else none

end Spec

theorem digit_inj : ∀ {m n : Nat}, digit m = digit n → m % 64 = n % 64 := by
  have h : ∀ i j : Fin 64, alphabet.getD i.1 'A' = alphabet.getD j.1 'A' → i = j := by decide +kernel
  intro m n e
  have := h ⟨m % 64, Nat.mod_lt _ (by decide)⟩ ⟨n % 64, Nat.mod_lt _ (by decide)⟩ e
  exact congrArg Fin.val this

theorem hexDigit_inj : ∀ {m n : Nat}, hexDigit m = hexDigit n → m % 16 = n % 16 := by
  have h : ∀ i j : Fin 16, "0123456789abcdef".toList.getD i.1 '0' = "0123456789abcdef".toList.getD j.1 '0' → i = j := by decide +kernel
  intro m n e
  have := h ⟨m % 16, Nat.mod_lt _ (by decide)⟩ ⟨n % 16, Nat.mod_lt _ (by decide)⟩ e
  exact congrArg Fin.val this

theorem digit_mem (n : Nat) : digit n ∈ alphabet := by
  have h : ∀ i : Fin 64, alphabet.getD i.1 'A' ∈ alphabet := by decide +kernel
  exact h ⟨n % 64, Nat.mod_lt _ (by decide)⟩

theorem hexDigit_mem (n : Nat) : hexDigit n ∈ "0123456789abcdef".toList := by
  have h : ∀ i : Fin 16, "0123456789abcdef".toList.getD i.1 '0' ∈ "0123456789abcdef".toList := by decide +kernel
  exact h ⟨n % 16, Nat.mod_lt _ (by decide)⟩

theorem u8_ext {a b : UInt8} (h : a.toNat = b.toNat) : a = b := UInt8.toNat_inj.mp h

/-- two byte sequences with the same URL-safe base64 text are equal -/
theorem base64url_inj : ∀ {x y : List UInt8}, base64url x = base64url y → x = y
  | [], [], _ => rfl
  | [], [_], h => by simp [base64url] at h
  | [], [_, _], h => by simp [base64url] at h
  | [], _ :: _ :: _ :: _, h => by simp [base64url] at h
  | [_], [], h => by simp [base64url] at h
  | [_, _], [], h => by simp [base64url] at h
  | _ :: _ :: _ :: _, [], h => by simp [base64url] at h
  | [_], [_, _], h => by simp [base64url] at h
  | [_, _], [_], h => by simp [base64url] at h
  | [_], _ :: _ :: _ :: _, h => by simp [base64url] at h
  | _ :: _ :: _ :: _, [_], h => by simp [base64url] at h
  | [_, _], _ :: _ :: _ :: _, h => by simp [base64url] at h
  | _ :: _ :: _ :: _, [_, _], h => by simp [base64url] at h
  | [a], [a'], h => by
    simp only [base64url, List.cons.injEq, and_true] at h
    obtain ⟨h1, h2⟩ := h
    have h1 := digit_inj h1
    have h2 := digit_inj h2
    have := a.toNat_lt; have := a'.toNat_lt
    rw [u8_ext (a := a) (b := a') (by omega)]
  | [a, b], [a', b'], h => by
    simp only [base64url, List.cons.injEq, and_true] at h
    obtain ⟨h1, h2, h3⟩ := h
    have h1 := digit_inj h1
    have h2 := digit_inj h2
    have h3 := digit_inj h3
    have := a.toNat_lt; have := a'.toNat_lt; have := b.toNat_lt; have := b'.toNat_lt
    rw [u8_ext (a := a) (b := a') (by omega), u8_ext (a := b) (b := b') (by omega)]
  | a :: b :: c :: r, a' :: b' :: c' :: r', h => by
    simp only [base64url, List.cons.injEq] at h
    obtain ⟨h1, h2, h3, h4, h5⟩ := h
    have h1 := digit_inj h1
    have h2 := digit_inj h2
    have h3 := digit_inj h3
    have h4 := digit_inj h4
    have := a.toNat_lt; have := a'.toNat_lt; have := b.toNat_lt; have := b'.toNat_lt; have := c.toNat_lt; have := c'.toNat_lt
    rw [base64url_inj h5, u8_ext (a := a) (b := a') (by omega), u8_ext (a := b) (b := b') (by omega), u8_ext (a := c) (b := c') (by omega)]

/-- two byte sequences with the same hexadecimal text are equal -/
theorem hex_inj : ∀ {x y : List UInt8}, hex x = hex y → x = y
  | [], [], _ => rfl
  | [], _ :: _, h => by simp [hex] at h
  | _ :: _, [], h => by simp [hex] at h
  | a :: r, a' :: r', h => by
    simp only [hex, List.cons.injEq] at h
    obtain ⟨h1, h2, h3⟩ := h
    have h1 := hexDigit_inj h1
    have h2 := hexDigit_inj h2
    have := a.toNat_lt; have := a'.toNat_lt
    rw [hex_inj h3, u8_ext (a := a) (b := a') (by omega)]

/-- the text has letters, digits, `-` and `_` only -/
theorem base64url_chars : ∀ (x : List UInt8) {c : Char}, c ∈ base64url x → c ∈ alphabet
  | [], _, h => by cases h
  | [a], c, h => by
    simp only [base64url, List.mem_cons, List.not_mem_nil, or_false] at h
    rcases h with rfl | rfl <;> exact digit_mem _
  | [a, b], c, h => by
    simp only [base64url, List.mem_cons, List.not_mem_nil, or_false] at h
    rcases h with rfl | rfl | rfl <;> exact digit_mem _
  | a :: b :: d :: r, c, h => by
    simp only [base64url, List.mem_cons] at h
    rcases h with rfl | rfl | rfl | rfl | h
    · exact digit_mem _
    · exact digit_mem _
    · exact digit_mem _
    · exact digit_mem _
    · exact base64url_chars r h

/-- how long the text is: as many digits of six bits as are needed -/
theorem base64url_length : ∀ x : List UInt8, (base64url x).length = (8 * x.length + 5) / 6
  | [] => rfl
  | [_] => by simp [base64url]
  | [_, _] => by simp [base64url]
  | a :: b :: c :: r => by
    simp only [base64url, List.length_cons, base64url_length r]
    omega

theorem value_digit (n : Nat) : Spec.value (digit n) = some (n % 64) := by
  have h : ∀ i : Fin 64, Spec.value (alphabet.getD i.1 'A') = some i.1 := by decide +kernel
  exact h ⟨n % 64, Nat.mod_lt _ (by decide)⟩

/-- **C126**, the encoding: the text is base64 as in RFC 4648 -/
theorem C126_base64 : ∀ x : List UInt8, Spec.Base64 (base64url x) x
  | [] => ⟨[], rfl, 0, by decide, rfl⟩
  | [a] => by
    refine ⟨[a.toNat * 65536 / 262144 % 64, a.toNat * 65536 / 4096 % 64], by simp [base64url, value_digit], 4, by decide, ?_⟩
    have := a.toNat_lt
    simp only [Spec.bits, List.flatMap_cons, List.flatMap_nil, List.append_nil, List.range, List.range.loop, List.map, List.cons_append, List.nil_append,
      List.replicate, List.cons.injEq, and_true, Nat.testBit_eq_decide_div_mod_eq, decide_eq_decide, decide_eq_false_iff_not]
    refine ⟨?_, ?_, ?_, ?_, ?_, ?_, ?_, ?_, ?_, ?_, ?_, ?_⟩ <;> omega
  | [a, b] => by
    refine ⟨[(a.toNat * 65536 + b.toNat * 256) / 262144 % 64, (a.toNat * 65536 + b.toNat * 256) / 4096 % 64,
      (a.toNat * 65536 + b.toNat * 256) / 64 % 64], by simp [base64url, value_digit], 2, by decide, ?_⟩
    have := a.toNat_lt; have := b.toNat_lt
    simp only [Spec.bits, List.flatMap_cons, List.flatMap_nil, List.append_nil, List.range, List.range.loop, List.map, List.cons_append, List.nil_append,
      List.replicate, List.cons.injEq, and_true, Nat.testBit_eq_decide_div_mod_eq, decide_eq_decide, decide_eq_false_iff_not]
    refine ⟨?_, ?_, ?_, ?_, ?_, ?_, ?_, ?_, ?_, ?_, ?_, ?_, ?_, ?_, ?_, ?_, ?_, ?_⟩ <;> omega
  | a :: b :: c :: r => by
    obtain ⟨vs, h1, k, hk, h2⟩ := C126_base64 r
    refine ⟨(a.toNat * 65536 + b.toNat * 256 + c.toNat) / 262144 % 64 :: (a.toNat * 65536 + b.toNat * 256 + c.toNat) / 4096 % 64 ::
      (a.toNat * 65536 + b.toNat * 256 + c.toNat) / 64 % 64 :: (a.toNat * 65536 + b.toNat * 256 + c.toNat) % 64 :: vs,
      by simp [base64url, value_digit, h1], k, hk, ?_⟩
    have := a.toNat_lt; have := b.toNat_lt; have := c.toNat_lt
    simp only [List.flatMap_cons, h2]
    simp only [Spec.bits, List.range, List.range.loop, List.map, List.cons_append, List.nil_append,
      List.cons.injEq, and_true, Nat.testBit_eq_decide_div_mod_eq, decide_eq_decide]
    refine ⟨?_, ?_, ?_, ?_, ?_, ?_, ?_, ?_, ?_, ?_, ?_, ?_, ?_, ?_, ?_, ?_, ?_, ?_, ?_, ?_, ?_, ?_, ?_, ?_⟩ <;> omega

theorem hexValue_digit (n : Nat) : Spec.hexValue (hexDigit n) = some (n % 16) := by
  have h : ∀ i : Fin 16, Spec.hexValue ("0123456789abcdef".toList.getD i.1 '0') = some i.1 := by decide +kernel
  exact h ⟨n % 16, Nat.mod_lt _ (by decide)⟩

/-- **C126**, the other encoding: two digits for each byte, the higher one first -/
theorem C126_hex (x : List UInt8) : (hex x).map Spec.hexValue = x.flatMap fun b => [some (b.toNat / 16), some (b.toNat % 16)] := by
  induction x with
  | nil => rfl
  | cons a x ih =>
    have h : a.toNat / 16 % 16 = a.toNat / 16 := by have := a.toNat_lt; omega
    simp [hex, hexValue_digit, ih, h]

example : base64url [0x14, 0xfb, 0x9c, 0x03, 0xd9, 0x7e] = "FPucA9l-".toList ∧ base64url [0xff] = "_w".toList ∧
    base64url [0xff, 0xe0] = "_-A".toList ∧ hex [0xe3, 0x0b] = "e30b".toList := by decide +kernel

end Go.Encode
