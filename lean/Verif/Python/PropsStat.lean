import Verif.Python.Stat
/-! C72, C73, C74: file modes and ZIP attributes. -/
namespace Python
open Go

theorem and_or_right {w : Nat} (a b c : BitVec w) : (a ||| b) &&& c = (a &&& c) ||| (b &&& c) := by
  ext i; simp; cases a[i] <;> cases b[i] <;> cases c[i] <;> rfl

theorem and_or_left {w : Nat} (a b c : BitVec w) : a &&& (b ||| c) = (a &&& b) ||| (a &&& c) := by
  ext i; simp; cases a[i] <;> cases b[i] <;> cases c[i] <;> rfl

/-- low bits do not meet a mask that has none of them -/
theorem low_and {w : Nat} {a : BitVec w} (k : BitVec w) (ha : a &&& 0o777#w = a) (hk : 0o777#w &&& k = 0#w) : a &&& k = 0#w := by
  rw [← ha, BitVec.and_assoc, hk]; simp

/-- one bit of a word is there or not -/
theorem one_bit {w : Nat} (a : BitVec w) (i : Nat) : a &&& BitVec.twoPow w i = 0#w ∨ a &&& BitVec.twoPow w i = BitVec.twoPow w i := by
  rw [BitVec.and_twoPow]
  split
  · exact Or.inr rfl
  · exact Or.inl rfl

theorem fromGo_low {a c : FileMode} (ha : a &&& 0o777#32 = a) (hc : c &&& 0o777#32 = 0#32) :
    fromGo (a ||| c) = a.setWidth 16 ||| fromGo c := by
  have h1 : (a ||| c) &&& 0o777#32 = a := by rw [and_or_right, ha, hc]; simp
  have hk : ∀ k : FileMode, 0o777#32 &&& k = 0#32 → (a ||| c) &&& k = c &&& k := by
    intro k hk; rw [and_or_right, low_and k ha hk]; simp
  unfold fromGo
  simp only [h1, hc, hk goSetgid (by decide), hk goSetuid (by decide), hk goSticky (by decide), hk goModeType (by decide)]
  split <;> split <;> split <;> simp [BitVec.or_assoc]

theorem toGo_low {a c : StatMode} (ha : a &&& 0o777#16 = a) (hc : c &&& 0o777#16 = 0#16) :
    toGo (a ||| c) = a.setWidth 32 ||| toGo c := by
  have h1 : (a ||| c) &&& 0o777#16 = a := by rw [and_or_right, ha, hc]; simp
  have hk : ∀ k : StatMode, 0o777#16 &&& k = 0#16 → (a ||| c) &&& k = c &&& k := by
    intro k hk; rw [and_or_right, low_and k ha hk]; simp
  unfold toGo
  simp only [h1, hc, hk modePermSetGID (by decide), hk modePermSetUID (by decide), hk modePermSticky (by decide), hk modeFmt (by decide)]
  split <;> split <;> split <;> simp [BitVec.or_assoc]

/-- the seven known types -/
def Spec.pyTypes : List StatMode :=
  [modeFmtNamedPipe, modeFmtCharDevice, modeFmtDir, modeFmtBlockDevice, modeFmtRegular, modeFmtSymlink, modeFmtSocket]

/-- the seven known types, in Go's encoding -/
def Spec.goTypes : List FileMode :=
  [goNamedPipe, goDevice ||| goCharDevice, goDir, goDevice, 0#32, goSymlink, goSocket]

theorem low_width {a : StatMode} (ha : a &&& 0o777#16 = a) : a.setWidth 32 &&& 0o777#32 = a.setWidth 32 := by
  have : (0o777#32) = (0o777#16).setWidth 32 := by decide
  rw [this, ← BitVec.setWidth_and, ha]

theorem low_width' {a : FileMode} (ha : a &&& 0o777#32 = a) : a.setWidth 16 &&& 0o777#16 = a.setWidth 16 := by
  have : (0o777#16) = (0o777#32).setWidth 16 := by decide
  rw [this, ← BitVec.setWidth_and, ha]

theorem low_high : ∀ i : Fin 32, ¬ i.val < 16 → (0o777#32)[i.val] = false := by decide

theorem widen_narrow {a : FileMode} (ha : a &&& 0o777#32 = a) : (a.setWidth 16).setWidth 32 = a := by
  rw [← ha]
  ext i hi
  simp only [BitVec.getElem_setWidth, BitVec.getLsbD_setWidth, BitVec.getLsbD_and, BitVec.getElem_and]
  by_cases h : i < 16
  · simp [h, BitVec.getLsbD_eq_getElem hi]
  · have : (0o777#32)[i] = false := by
      exact low_high ⟨i, hi⟩ h
    simp [h, this]

theorem high_py : ∀ x y z : Bool, ∀ t ∈ Spec.pyTypes,
    let d := (if x then modePermSetUID else 0#16) ||| (if y then modePermSetGID else 0#16) ||| (if z then modePermSticky else 0#16) ||| t
    toGo d &&& 0o777#32 = 0#32 ∧ fromGo (toGo d) = d ∧ d &&& 0o777#16 = 0#16 := by
  intro x y z t ht
  simp only [Spec.pyTypes, List.mem_cons, List.not_mem_nil, or_false] at ht
  rcases ht with rfl | rfl | rfl | rfl | rfl | rfl | rfl <;> cases x <;> cases y <;> cases z <;> decide +kernel

theorem high_go : ∀ x y z : Bool, ∀ t ∈ Spec.goTypes,
    let d := (if x then goSetuid else 0#32) ||| (if y then goSetgid else 0#32) ||| (if z then goSticky else 0#32) ||| t
    fromGo d &&& 0o777#16 = 0#16 ∧ toGo (fromGo d) = d ∧ d &&& 0o777#32 = 0#32 := by
  intro x y z t ht
  simp only [Spec.goTypes, List.mem_cons, List.not_mem_nil, or_false] at ht
  rcases ht with rfl | rfl | rfl | rfl | rfl | rfl | rfl <;> cases x <;> cases y <;> cases z <;> decide +kernel

theorem bool_of_bit {w : Nat} {a b : BitVec w} (h : a = 0#w ∨ a = b) : ∃ x : Bool, a = if x then b else 0#w := by
  rcases h with h | h
  · exact ⟨false, h⟩
  · exact ⟨true, h⟩

/-- **C72**, from Python: a mode with one of the seven known types survives the conversion to Go and back. -/
theorem C72_py_round_trip (m : StatMode) (ht : m &&& modeFmt ∈ Spec.pyTypes) : fromGo (toGo m) = m := by
  have hm : m = (m &&& 0o777#16) ||| ((m &&& modePermSetUID) ||| (m &&& modePermSetGID) ||| (m &&& modePermSticky) ||| (m &&& modeFmt)) := by
    rw [← and_or_left, ← and_or_left, ← and_or_left, ← and_or_left,
      show 0o777#16 ||| (modePermSetUID ||| modePermSetGID ||| modePermSticky ||| modeFmt) = BitVec.allOnes 16 by decide, BitVec.and_allOnes]
  have h1 : m &&& 0o777#16 &&& 0o777#16 = m &&& 0o777#16 := by rw [BitVec.and_assoc, BitVec.and_self]
  obtain ⟨x, hx⟩ := bool_of_bit (one_bit m 11)
  obtain ⟨y, hy⟩ := bool_of_bit (one_bit m 10)
  obtain ⟨z, hz⟩ := bool_of_bit (one_bit m 9)
  rw [show BitVec.twoPow 16 11 = modePermSetUID by decide] at hx
  rw [show BitVec.twoPow 16 10 = modePermSetGID by decide] at hy
  rw [show BitVec.twoPow 16 9 = modePermSticky by decide] at hz
  have hh := high_py x y z _ ht
  simp only [← hx, ← hy, ← hz] at hh
  rw [hm, toGo_low h1 hh.2.2, fromGo_low (low_width h1) hh.1, hh.2.1]
  simp

/-- **C72**, from Go: a mode made of permission bits, setuid, setgid and sticky bits and one of the seven known types
survives the conversion to Python and back. -/
theorem C72_go_round_trip (g : FileMode) (hbits : g &&& ~~~(0o777#32 ||| goSetuid ||| goSetgid ||| goSticky ||| goModeType) = 0#32)
    (ht : g &&& goModeType ∈ Spec.goTypes) : toGo (fromGo g) = g := by
  have hm : g = (g &&& 0o777#32) ||| ((g &&& goSetuid) ||| (g &&& goSetgid) ||| (g &&& goSticky) ||| (g &&& goModeType)) := by
    rw [← and_or_left, ← and_or_left, ← and_or_left, ← and_or_left]
    have : g = (g &&& (0o777#32 ||| goSetuid ||| goSetgid ||| goSticky ||| goModeType)) ||| (g &&& ~~~(0o777#32 ||| goSetuid ||| goSetgid ||| goSticky ||| goModeType)) := by
      rw [← and_or_left, show ∀ k : FileMode, k ||| ~~~k = BitVec.allOnes 32 from fun k => by ext i; simp, BitVec.and_allOnes]
    rw [hbits, BitVec.or_zero] at this
    rw [BitVec.or_assoc, BitVec.or_assoc, BitVec.or_assoc] at this
    rw [BitVec.or_assoc, BitVec.or_assoc]
    exact this
  have h1 : g &&& 0o777#32 &&& 0o777#32 = g &&& 0o777#32 := by rw [BitVec.and_assoc, BitVec.and_self]
  obtain ⟨x, hx⟩ := bool_of_bit (one_bit g 23)
  obtain ⟨y, hy⟩ := bool_of_bit (one_bit g 22)
  obtain ⟨z, hz⟩ := bool_of_bit (one_bit g 20)
  rw [show BitVec.twoPow 32 23 = goSetuid by decide] at hx
  rw [show BitVec.twoPow 32 22 = goSetgid by decide] at hy
  rw [show BitVec.twoPow 32 20 = goSticky by decide] at hz
  have hh := high_go x y z _ ht
  simp only [← hx, ← hy, ← hz] at hh
  rw [hm, fromGo_low h1 hh.2.2, toGo_low (low_width' h1) hh.1, hh.2.1, widen_narrow h1]

/-- the conversion to Go keeps the kind of file: directories and regular files are those Go takes for such -/
theorem C72_kind (m : StatMode) :
    (isDir m = true ↔ toGo m &&& goDir ≠ 0#32) ∧ (isRegular m = true ↔ toGo m &&& goModeType = 0#32) := by
  have h : ∀ k : FileMode, 0o777#32 &&& k = 0#32 → goSetuid &&& k = 0#32 → goSetgid &&& k = 0#32 → goSticky &&& k = 0#32 →
      toGo m &&& k = typeToGo (m &&& modeFmt) &&& k := by
    intro k h1 h2 h3 h4
    have h0 : (m &&& 0o777#16).setWidth 32 &&& k = 0#32 :=
      low_and k (low_width (by rw [BitVec.and_assoc, BitVec.and_self])) h1
    unfold toGo
    simp only
    rw [and_or_right]
    generalize (m &&& 0o777#16).setWidth 32 = a at h0
    split <;> split <;> split <;> simp [and_or_right, h0, h2, h3, h4]
  rw [h goDir (by decide) (by decide) (by decide) (by decide), h goModeType (by decide) (by decide) (by decide) (by decide)]
  unfold isDir isRegular typeToGo
  generalize m &&& modeFmt = t
  constructor
  · by_cases ht : t = modeFmtDir
    · subst ht; decide
    · rw [decide_eq_false ht]
      constructor
      · intro h; cases h
      · repeat' split
        all_goals (intro h; exact absurd (by decide) h)
  · by_cases ht : t = modeFmtRegular
    · subst ht; decide
    · rw [decide_eq_false ht]
      constructor
      · intro h; cases h
      · repeat' split
        all_goals (intro h; revert h; decide)

example : (0o100755#16 &&& modeFmt ∈ Spec.pyTypes) ∧ toGo 0o100755#16 = 0o755#32 ∧
    toGo 0o041777#16 = goDir ||| goSticky ||| 0o777#32 ∧ (toGo 0o041777#16 &&& goModeType ∈ Spec.goTypes) := by decide

/-! ### ZIP attributes -/

/-- **C73**: packing and unpacking loses nothing -/
theorem C73_parse_raw (ea : ZipAttrs) : parseZipAttrs ea.raw = ea := by
  obtain ⟨u, x, d⟩ := ea
  unfold parseZipAttrs ZipAttrs.raw
  congr 1
  · ext i hi
    simp [show 16 + i < 32 by omega, show i < 32 by omega, BitVec.getLsbD_eq_getElem hi, show ¬ 16 + i < 8 by omega,
      BitVec.getLsbD_of_ge x (16 + i - 8) (by omega), BitVec.getLsbD_of_ge d (16 + i) (by omega)]
  · ext i hi
    simp [show 8 + i < 32 by omega, show i < 32 by omega, BitVec.getLsbD_eq_getElem hi, show 8 + i < 16 by omega]
  · ext i hi
    simp

/-- **C73**: unpacking and packing loses nothing -/
theorem C73_raw_parse (r : BitVec 32) : (parseZipAttrs r).raw = r := by
  unfold parseZipAttrs ZipAttrs.raw
  ext i hi
  simp
  by_cases h1 : i < 8
  · simp [h1, show i < 16 by omega, BitVec.getLsbD_eq_getElem hi]
  · by_cases h2 : i < 16
    · simp [h1, h2, show i - 8 < 8 by omega, show 8 + (i - 8) = i by omega, BitVec.getLsbD_eq_getElem hi]
    · simp [h1, h2, show ¬ i - 8 < 8 by omega, show i - 16 < 16 by omega, show 16 + (i - 16) = i by omega, BitVec.getLsbD_eq_getElem hi]

example : parseZipAttrs 0x81a40010#32 = ⟨0o100644#16, 0#8, 0x10#8⟩ := by decide

/-! ### String -/

theorem bit_index (m : StatMode) (k : Nat) : ((m >>> k) &&& 1#16).toNat = (m.getLsbD k).toNat := by
  rw [show (1#16) = BitVec.twoPow 16 0 by decide, BitVec.and_twoPow, BitVec.getLsbD_ushiftRight]
  cases h : m.getLsbD (k + 0) <;> simp at h <;> simp

theorem bit_index2 (m : StatMode) (j k : Nat) :
    (((m >>> j) &&& 1#16) ||| ((m >>> k) &&& 2#16)).toNat = (m.getLsbD j).toNat + 2 * (m.getLsbD (k + 1)).toNat := by
  rw [show (1#16) = BitVec.twoPow 16 0 by decide, show (2#16) = BitVec.twoPow 16 1 by decide, BitVec.and_twoPow, BitVec.and_twoPow,
    BitVec.getLsbD_ushiftRight, BitVec.getLsbD_ushiftRight]
  cases h : m.getLsbD (j + 0) <;> simp at h <;> cases h2 : m.getLsbD (k + 1) <;> simp

/-- the ten characters, from the bits -/
theorem modeString_eq (m : StatMode) :
    modeString m = some ["?pc?d?b?-?l?s?w?".toList[(m >>> 12).toNat]?.getD '?',
      if m.getLsbD 8 then 'r' else '-', if m.getLsbD 7 then 'w' else '-',
      if m.getLsbD 6 then (if m.getLsbD 11 then 's' else 'x') else (if m.getLsbD 11 then 'S' else '-'),
      if m.getLsbD 5 then 'r' else '-', if m.getLsbD 4 then 'w' else '-',
      if m.getLsbD 3 then (if m.getLsbD 10 then 's' else 'x') else (if m.getLsbD 10 then 'S' else '-'),
      if m.getLsbD 2 then 'r' else '-', if m.getLsbD 1 then 'w' else '-',
      if m.getLsbD 0 then (if m.getLsbD 9 then 't' else 'x') else (if m.getLsbD 9 then 'T' else '-')] := by
  have h12 : (m >>> 12).toNat < 16 := by
    rw [BitVec.toNat_ushiftRight, Nat.shiftRight_eq_div_pow]
    have := m.isLt
    omega
  have r1 : ∀ b : Bool, "-r".toList[b.toNat]? = some (if b then 'r' else '-') := by decide
  have w1 : ∀ b : Bool, "-w".toList[b.toNat]? = some (if b then 'w' else '-') := by decide
  have s1 : ∀ b c : Bool, "-xSs".toList[b.toNat + 2 * c.toNat]? = some (if b then (if c then 's' else 'x') else (if c then 'S' else '-')) := by decide
  have t1 : ∀ b c : Bool, "-xTt".toList[b.toNat + 2 * c.toNat]? = some (if b then (if c then 't' else 'x') else (if c then 'T' else '-')) := by decide
  have h0 : ∀ n, n < 16 → "?pc?d?b?-?l?s?w?".toList[n]? = some ("?pc?d?b?-?l?s?w?".toList[n]?.getD '?') := by decide
  unfold modeString
  rw [h0 _ h12]
  simp only [bit_index, bit_index2, r1, w1, s1, t1]
  rfl

/-- **C74**: the rendering never panics and has ten characters; two modes rendered alike have the same twelve permission
bits, and the same type if these are known. -/
theorem C74_string (m : StatMode) :
    ∃ s, modeString m = some s ∧ s.length = 10 ∧
      ∀ m', modeString m' = some s → m &&& 0o7777#16 = m' &&& 0o7777#16 ∧
        (m &&& modeFmt ∈ Spec.pyTypes → m' &&& modeFmt ∈ Spec.pyTypes → m = m') := by
  refine ⟨_, modeString_eq m, rfl, ?_⟩
  intro m' h
  rw [modeString_eq m', Option.some.injEq] at h
  simp only [List.cons.injEq, and_true] at h
  obtain ⟨h0, h8, h7, h6, h5, h4, h3, h2, h1, hx⟩ := h
  have rb : ∀ x y : Bool, (if x then 'r' else '-') = (if y then 'r' else '-') → x = y := by decide
  have wb : ∀ x y : Bool, (if x then 'w' else '-') = (if y then 'w' else '-') → x = y := by decide
  have sb : ∀ x y x' y' : Bool, (if x then (if y then 's' else 'x') else (if y then 'S' else '-')) =
      (if x' then (if y' then 's' else 'x') else (if y' then 'S' else '-')) → x = x' ∧ y = y' := by decide
  have tb : ∀ x y x' y' : Bool, (if x then (if y then 't' else 'x') else (if y then 'T' else '-')) =
      (if x' then (if y' then 't' else 'x') else (if y' then 'T' else '-')) → x = x' ∧ y = y' := by decide
  have b8 := rb _ _ h8
  have b7 := wb _ _ h7
  obtain ⟨b6, b11⟩ := sb _ _ _ _ h6
  have b5 := rb _ _ h5
  have b4 := wb _ _ h4
  obtain ⟨b3, b10⟩ := sb _ _ _ _ h3
  have b2 := rb _ _ h2
  have b1 := wb _ _ h1
  obtain ⟨b0, b9⟩ := tb _ _ _ _ hx
  have bits : ∀ i, i < 12 → m.getLsbD i = m'.getLsbD i := by
    intro i hi
    rcases (by omega : i = 0 ∨ i = 1 ∨ i = 2 ∨ i = 3 ∨ i = 4 ∨ i = 5 ∨ i = 6 ∨ i = 7 ∨ i = 8 ∨ i = 9 ∨ i = 10 ∨ i = 11) with
      rfl | rfl | rfl | rfl | rfl | rfl | rfl | rfl | rfl | rfl | rfl | rfl
    all_goals first | exact b0.symm | exact b1.symm | exact b2.symm | exact b3.symm | exact b4.symm | exact b5.symm | exact b6.symm | exact b7.symm | exact b8.symm | exact b9.symm | exact b10.symm | exact b11.symm
  have hlow : m &&& 0o7777#16 = m' &&& 0o7777#16 := by
    apply BitVec.eq_of_getLsbD_eq
    intro i hi
    rw [BitVec.getLsbD_and, BitVec.getLsbD_and]
    by_cases h : i < 12
    · rw [bits i h]
    · have : ∀ i : Fin 16, ¬ i.val < 12 → (0o7777#16).getLsbD i.val = false := by decide
      rw [this ⟨i, hi⟩ h]; simp
  refine ⟨hlow, ?_⟩
  intro t1 t2
  have ty : ∀ m : StatMode, m &&& modeFmt = BitVec.ofNat 16 (4096 * (m >>> 12).toNat) := by
    intro m
    have h : m &&& modeFmt = (m >>> 12) <<< 12 := by
      apply BitVec.eq_of_getLsbD_eq
      intro i hi
      rw [BitVec.getLsbD_and, BitVec.getLsbD_shiftLeft, BitVec.getLsbD_ushiftRight]
      have hc : ∀ i : Fin 16, modeFmt.getLsbD i.val = decide (12 ≤ i.val) := by decide
      rw [hc ⟨i, hi⟩]
      by_cases h : 12 ≤ i
      · simp [h, hi, show ¬ i < 12 by omega, show 12 + (i - 12) = i by omega]
      · simp [h, show i < 12 by omega]
    rw [h]
    apply BitVec.eq_of_toNat_eq
    rw [BitVec.toNat_shiftLeft, BitVec.toNat_ofNat, Nat.shiftLeft_eq, Nat.mul_comm]
  have h12 : ∀ m : StatMode, (m >>> 12).toNat < 16 := by
    intro m
    rw [BitVec.toNat_ushiftRight, Nat.shiftRight_eq_div_pow]
    have := m.isLt
    omega
  have key : ∀ a b : Fin 16, BitVec.ofNat 16 (4096 * a.val) ∈ Spec.pyTypes → BitVec.ofNat 16 (4096 * b.val) ∈ Spec.pyTypes →
      "?pc?d?b?-?l?s?w?".toList[a.val]?.getD '?' = "?pc?d?b?-?l?s?w?".toList[b.val]?.getD '?' → a = b := by decide
  have e12 := key ⟨_, h12 m⟩ ⟨_, h12 m'⟩ (by rw [← ty]; exact t1) (by rw [← ty]; exact t2) h0.symm
  have hfmt : m &&& modeFmt = m' &&& modeFmt := by
    rw [ty m, ty m', show (m >>> 12).toNat = (m' >>> 12).toNat from Fin.mk.inj e12]
  have full : ∀ m : StatMode, m = (m &&& 0o7777#16) ||| (m &&& modeFmt) := by
    intro m
    rw [← and_or_left, show 0o7777#16 ||| modeFmt = BitVec.allOnes 16 by decide, BitVec.and_allOnes]
  rw [full m, full m', hlow, hfmt]

example : modeString 0o104754#16 = some "-rwsr-xr--".toList := by decide

/-! ### file attributes -/

/-- Python's `stat.FILE_ATTRIBUTE_*`: the number of the bit for each, as documented (Python documentation, module `stat`), with the name
that this package has for it -/
def Spec.pyAttrs : List (Str × Nat) :=
  [("FileAttributeReadonly", 0), ("FileAttributeHidden", 1), ("FileAttributeSystem", 2), ("FileAttributeDirectory", 4),
   ("FileAttributeArchive", 5), ("FileAttributeDevice", 6), ("FileAttributeNormal", 7), ("FileAttributeTemporary", 8),
   ("FileAttributeSparseFile", 9), ("FileAttributeReparsePoint", 10), ("FileAttributeCompressed", 11), ("FileAttributeOffline", 12),
   ("FileAttributeNotContentIndexed", 13), ("FileAttributeEncrypted", 14), ("FileAttributeIntegrityStream", 15),
   ("FileAttributeVirtual", 16), ("FileAttributeNoScrubData", 17)].map (fun x => (x.1.toList, x.2))

theorem and_bit (fa : BitVec 32) (i : Nat) (hi : i < 32) : fa &&& (1#32 <<< i) ≠ 0#32 ↔ fa.getLsbD i = true := by
  constructor
  · intro h
    cases hb : fa.getLsbD i with
    | true => rfl
    | false =>
      exfalso
      apply h
      apply BitVec.eq_of_getLsbD_eq
      intro j hj
      rw [BitVec.getLsbD_and, BitVec.getLsbD_shiftLeft, BitVec.getLsbD_zero]
      by_cases e : j = i
      · subst e; rw [hb]; rfl
      · have : (1#32).getLsbD (j - i) = true → j - i = 0 := by
          intro h1
          rw [BitVec.getLsbD_one] at h1
          simp at h1
          exact h1
        cases h1 : (1#32).getLsbD (j - i) with
        | false => simp
        | true =>
          have := this h1
          simp [show j < i by omega]
  · intro h h0
    have := congrArg (fun b : BitVec 32 => b.getLsbD i) h0
    simp only [BitVec.getLsbD_and, BitVec.getLsbD_shiftLeft, BitVec.getLsbD_zero, h] at this
    simp [hi] at this

/-- **C139** for the attributes in the low byte: in every word of attributes, testing for one of the package's constants tells whether
Python's attribute of this name is set.

Missing for the full claim: the attributes above the low byte; see `C139_violated`. -/
theorem C139_low_partial (fa : BitVec 32) (name : Str) (i : Nat) (h : (name, i) ∈ Spec.pyAttrs) (hi : i < 8) :
    ∃ c, attrByName name = some c ∧ (fa &&& c ≠ 0#32 ↔ fa.getLsbD i = true) := by
  have key : ∀ x ∈ Spec.pyAttrs, x.2 < 8 → attrByName x.1 = some (1#32 <<< x.2) := by decide +kernel
  exact ⟨_, key _ h hi, and_bit fa i (by omega)⟩

/-- **C139** is violated for every attribute above the low byte: the package's constant is a bit eight places higher, so a word with
just Python's attribute does not pass the test, and one without it does. -/
theorem C139_violated (name : Str) (i : Nat) (h : (name, i) ∈ Spec.pyAttrs) (hi : 8 ≤ i) :
    ∃ c fa fb, attrByName name = some c ∧ fa.getLsbD i = true ∧ fa &&& c = 0#32 ∧ fb.getLsbD i = false ∧ fb &&& c ≠ 0#32 := by
  have key : ∀ x ∈ Spec.pyAttrs, 8 ≤ x.2 → attrByName x.1 = some (1#32 <<< (x.2 + 8)) ∧ (1#32 <<< x.2).getLsbD x.2 = true ∧
      1#32 <<< x.2 &&& 1#32 <<< (x.2 + 8) = 0#32 ∧ (1#32 <<< (x.2 + 8)).getLsbD x.2 = false ∧
      1#32 <<< (x.2 + 8) &&& 1#32 <<< (x.2 + 8) ≠ 0#32 := by decide +kernel
  obtain ⟨a, b, c, d, e⟩ := key _ h hi
  exact ⟨_, _, _, a, b, c, d, e⟩

/-- **C139** is violated: what Python calls a virtual file is a temporary one here, and what Python calls a temporary file is not -/
theorem C139_violated_temporary : ("FileAttributeTemporary".toList, 8) ∈ Spec.pyAttrs ∧ ("FileAttributeVirtual".toList, 16) ∈ Spec.pyAttrs ∧
    ∃ c, attrByName "FileAttributeTemporary".toList = some c ∧ (1#32 <<< 16) &&& c ≠ 0#32 ∧ (1#32 <<< 8) &&& c = 0#32 := by
  refine ⟨by decide +kernel, by decide +kernel, 1#32 <<< 16, by decide +kernel, by decide +kernel, by decide +kernel⟩

/-- **C139** (`ToDOS`): for every word of attributes, the bits that stay are those for read-only, hidden, system, directory and archive,
as they were -/
theorem C139_dos (fa : BitVec 32) (i : Nat) :
    (toDOS fa).getLsbD i = (decide (∃ name ∈ ["FileAttributeReadonly", "FileAttributeHidden", "FileAttributeSystem", "FileAttributeDirectory",
      "FileAttributeArchive"].map String.toList, (name, i) ∈ Spec.pyAttrs) && fa.getLsbD i) := by
  unfold toDOS
  rw [BitVec.getLsbD_setWidth, BitVec.getLsbD_and]
  by_cases hi : i < 32
  · have key : ∀ i : Fin 32, (decide (i.val < 8) && (0b00110111#32).getLsbD i.val) = decide (∃ name ∈ ["FileAttributeReadonly", "FileAttributeHidden", "FileAttributeSystem", "FileAttributeDirectory",
      "FileAttributeArchive"].map String.toList, (name, i.val) ∈ Spec.pyAttrs) := by decide +kernel
    rw [← key ⟨i, hi⟩]
    cases fa.getLsbD i <;> simp
  · rw [BitVec.getLsbD_of_ge fa i (by omega)]
    simp

example : ("FileAttributeArchive".toList, 5) ∈ Spec.pyAttrs ∧ ("FileAttributeOffline".toList, 12) ∈ Spec.pyAttrs ∧
    toDOS 0xffffffff#32 = 0x37#8 := by decide +kernel

end Python
