import Verif.Fsutil.CrashSpec
import Verif.Fsutil.PropsDiff
/-! Lemmas: how the beginning of an archive is read, and how it compares. -/
namespace Fsutil.Crash
open Go _root_.Fsutil.Crash.Spec

/-- an entry with all of its content -/
def full (e : Hdr × Bytes) : Hdr × Rd := (e.1, ⟨[e.2], .eof⟩)

/-- what the first `k` bytes of an archive read as -/
def cutArch : List (Hdr × Bytes) → Nat → Arch
  | [], k => ⟨[], if k = 0 ∨ k = 512 ∨ 1024 ≤ k then .eof else .unexpectedEOF⟩
  | e :: es, k =>
    if k = 0 then ⟨[], .eof⟩
    else if k < 512 then ⟨[], .unexpectedEOF⟩
    else if k < 512 + e.2.length then ⟨[(e.1, ⟨[e.2.take (k - 512)], .unexpectedEOF⟩)], .unexpectedEOF⟩
    else if k < room e then ⟨[full e], .eof⟩
    else ⟨full e :: (cutArch es (k - room e)).entries, (cutArch es (k - room e)).tail⟩

theorem zeros_length (n : Nat) : (zeros n).length = n := List.length_replicate

theorem zeros_take (n k : Nat) : (zeros n).take k = zeros (min k n) := by simp [zeros]

theorem zeros_drop (n k : Nat) : (zeros n).drop k = zeros (n - k) := by simp [zeros]

theorem fits_cons {cd : Codec} {e : Hdr × Bytes} {es : List (Hdr × Bytes)} (h : Fits cd (e :: es)) :
    ((cd.enc e.1).length = 512 ∧ cd.enc e.1 ≠ zeros 512 ∧ cd.dec (cd.enc e.1) = some e.1 ∧ e.2.length = dataSize e.1 ∧
      (headerOnly e.1.typeflag = true ∨ 0 ≤ e.1.size)) ∧ Fits cd es :=
  ⟨h e List.mem_cons_self, fun x hx => h x (List.mem_cons_of_mem _ hx)⟩

theorem tarBytes_cons (cd : Codec) (e : Hdr × Bytes) (es : List (Hdr × Bytes)) :
    tarBytes cd (e :: es) = cd.enc e.1 ++ (e.2 ++ (zeros (padding e.2.length) ++ tarBytes cd es)) := by
  simp [tarBytes, entryBytes]

theorem readTar_cut (cd : Codec) (es : List (Hdr × Bytes)) (h : Fits cd es) (k n : Nat)
    (hn : ((tarBytes cd es).take k).length < n) : readTar cd n ((tarBytes cd es).take k) = cutArch es k := by
  induction es generalizing k n with
  | nil =>
    have ht : (tarBytes cd []).take k = zeros (min k 1024) := by
      simp [tarBytes, zeros_take, blockSize]
    rw [ht] at hn ⊢
    obtain ⟨n, rfl⟩ : ∃ m, n = m + 1 := ⟨n - 1, by omega⟩
    rw [readTar, readHeader, cutArch]
    simp only [zeros_length, zeros_take, zeros_drop, blockSize]
    by_cases h0 : k = 0
    · simp [h0]
    · by_cases h1 : k < 512
      · rw [if_neg (by omega), if_pos (by omega)]
        simp [h0]; omega
      · rw [if_neg (by omega), if_neg (by omega), if_pos (congrArg zeros (by omega))]
        by_cases h2 : k = 512
        · simp [h2]
        · by_cases h3 : k < 1024
          · rw [if_neg (by omega), if_pos (by omega)]
            simp [h0, h2]; omega
          · rw [if_neg (by omega), if_neg (by omega), if_pos (congrArg zeros (by omega))]
            simp; omega
  | cons e es ih =>
    obtain ⟨⟨h1, h2, h3, h4, h5⟩, hes⟩ := fits_cons h
    obtain ⟨n, rfl⟩ : ∃ m, n = m + 1 := ⟨n - 1, by omega⟩
    rw [tarBytes_cons] at hn ⊢
    rw [readTar, cutArch, readHeader]
    generalize hA : (cd.enc e.1 ++ (e.2 ++ (zeros (padding e.2.length) ++ tarBytes cd es))).take k = A at hn ⊢
    have hlen : A.length = min k (512 + (e.2.length + (padding e.2.length + (tarBytes cd es).length))) := by
      rw [← hA]; simp [h1, zeros_length]
    by_cases k0 : k = 0
    · have : A.length = 0 := by omega
      simp [this, k0]
    · by_cases k1 : k < 512
      · rw [if_neg (by omega), if_pos (by simp only [blockSize]; omega), if_neg k0, if_pos k1]
      · rw [if_neg (by omega), if_neg (by simp only [blockSize]; omega), if_neg k0, if_neg k1]
        have hhead : A.take blockSize = cd.enc e.1 := by
          rw [← hA, List.take_take, show min blockSize k = 512 by simp only [blockSize]; omega, List.take_append_of_le_length (by omega),
            List.take_of_length_le (by omega)]
        have hrest : A.drop blockSize = (e.2 ++ (zeros (padding e.2.length) ++ tarBytes cd es)).take (k - 512) := by
          rw [← hA, List.drop_take, List.drop_append_of_le_length (by simp only [blockSize]; omega),
            List.drop_of_length_le (by simp only [blockSize]; omega), List.nil_append]
          rfl
        have hneg : ¬ ((!headerOnly e.1.typeflag) = true ∧ e.1.size < 0) := by
          rintro ⟨ha, hb⟩
          rcases h5 with h5 | h5
          · rw [h5] at ha; cases ha
          · omega
        rw [hhead, if_neg (show ¬ cd.enc e.1 = zeros blockSize from h2), h3]
        simp only [hneg, if_false, hrest, ← h4]
        have hl2 : ((e.2 ++ (zeros (padding e.2.length) ++ tarBytes cd es)).take (k - 512)).length =
            min (k - 512) (e.2.length + (padding e.2.length + (tarBytes cd es).length)) := by simp [zeros_length]
        have htl : 1024 ≤ (tarBytes cd es).length := by simp [tarBytes, zeros_length, blockSize]
        by_cases k2 : k < 512 + e.2.length
        · rw [if_pos (by omega), if_pos k2, List.take_append_of_le_length (by omega)]
        · rw [if_neg (by omega), if_neg k2]
          have hb : ((e.2 ++ (zeros (padding e.2.length) ++ tarBytes cd es)).take (k - 512)).take e.2.length = e.2 := by
            rw [List.take_take, Nat.min_eq_left (by omega), List.take_append_of_le_length (Nat.le_refl _), List.take_length]
          have hd : ((e.2 ++ (zeros (padding e.2.length) ++ tarBytes cd es)).take (k - 512)).drop e.2.length =
              (zeros (padding e.2.length) ++ tarBytes cd es).take (k - 512 - e.2.length) := by
            rw [List.drop_take, List.drop_append_of_le_length (Nat.le_refl _), List.drop_length, List.nil_append]
          have hl3 : ((zeros (padding e.2.length) ++ tarBytes cd es).take (k - 512 - e.2.length)).length =
              min (k - 512 - e.2.length) (padding e.2.length + (tarBytes cd es).length) := by simp [zeros_length]
          rw [hb, hd]
          by_cases k3 : k < room e
          · rw [if_pos (by rw [hl3]; unfold room at k3; omega), if_pos k3]; simp only [full]
          · have k3' : 512 + e.2.length + padding e.2.length ≤ k := by unfold room at k3; omega
            rw [if_neg (by rw [hl3]; omega), if_neg k3]
            have hd2 : ((zeros (padding e.2.length) ++ tarBytes cd es).take (k - 512 - e.2.length)).drop (padding e.2.length) =
                (tarBytes cd es).take (k - room e) := by
              rw [List.drop_take, List.drop_append_of_le_length (by rw [zeros_length]; omega),
                List.drop_of_length_le (by rw [zeros_length]; omega), List.nil_append,
                show k - 512 - e.2.length - padding e.2.length = k - room e by unfold room; omega]
            rw [hd2, ih hes (k - room e) n (by rw [List.length_take]; unfold room; omega)]
            simp only [full]

theorem archOf_cut {cd : Codec} {es : List (Hdr × Bytes)} (h : Fits cd es) (k : Nat) :
    archOf cd ((tarBytes cd es).take k) = cutArch es k := readTar_cut cd es h k _ (Nat.lt_succ_self _)

theorem tarBytes_length {cd : Codec} {es : List (Hdr × Bytes)} (h : Fits cd es) :
    (tarBytes cd es).length = (es.map room).sum + 1024 := by
  induction es with
  | nil => simp [tarBytes, zeros_length, blockSize]
  | cons e es ih =>
    obtain ⟨⟨h1, _⟩, hes⟩ := fits_cons h
    rw [tarBytes_cons]
    simp [h1, zeros_length, ih hes, room]
    omega

theorem cutArch_all (es : List (Hdr × Bytes)) (k : Nat) (hk : (es.map room).sum + 1024 ≤ k) : cutArch es k = ⟨es.map full, .eof⟩ := by
  induction es generalizing k with
  | nil => simp at hk; simp [cutArch, hk]
  | cons e es ih =>
    simp only [List.map_cons, List.sum_cons] at hk
    have : 512 ≤ room e ∧ 512 + e.2.length ≤ room e := by unfold room; omega
    rw [cutArch, if_neg (by omega), if_neg (by omega), if_neg (by omega), if_neg (by omega), ih _ (by omega)]
    rfl

theorem archOf_tarBytes {cd : Codec} {es : List (Hdr × Bytes)} (h : Fits cd es) : archOf cd (tarBytes cd es) = ⟨es.map full, .eof⟩ := by
  have := archOf_cut h (tarBytes cd es).length
  rw [List.take_length] at this
  rw [this, cutArch_all _ _ (by rw [tarBytes_length h]; exact Nat.le_refl _)]

theorem start_cons (e : Hdr × Bytes) (es : List (Hdr × Bytes)) (i : Nat) : start (e :: es) (i + 1) = room e + start es i := by
  simp [start]

theorem start_zero (es : List (Hdr × Bytes)) : start es 0 = 0 := by simp [start]

theorem inside_nil (k : Nat) : Inside [] k ↔ (0 < k ∧ k < 512) ∨ (512 < k ∧ k < 1024) := by
  unfold Inside
  constructor
  · rintro (⟨i, hi, h1, h2⟩ | h)
    · obtain rfl : i = 0 := by simpa using hi
      rw [start_zero] at h1 h2
      exact Or.inl ⟨h1, by omega⟩
    · rw [List.length_nil, start_zero] at h
      exact Or.inr ⟨by omega, by omega⟩
  · rintro (h | h)
    · exact Or.inl ⟨0, Nat.le_refl _, by rw [start_zero]; omega, by rw [start_zero]; omega⟩
    · exact Or.inr (by rw [List.length_nil, start_zero]; omega)

theorem inside_cons (e : Hdr × Bytes) (es : List (Hdr × Bytes)) (k : Nat) :
    Inside (e :: es) k ↔ (0 < k ∧ k < 512) ∨ (room e ≤ k ∧ Inside es (k - room e)) := by
  unfold Inside
  constructor
  · rintro (⟨i, hi, h1, h2⟩ | h)
    · cases i with
      | zero => rw [start_zero] at h1 h2; exact Or.inl ⟨h1, by omega⟩
      | succ i =>
        rw [start_cons] at h1 h2
        exact Or.inr ⟨by omega, Or.inl ⟨i, by simpa using hi, by omega, by omega⟩⟩
    · rw [List.length_cons, start_cons] at h
      exact Or.inr ⟨by omega, Or.inr (by omega)⟩
  · rintro (h | ⟨h0, ⟨i, hi, h1, h2⟩ | h⟩)
    · exact Or.inl ⟨0, Nat.zero_le _, by rw [start_zero]; omega, by rw [start_zero]; omega⟩
    · exact Or.inl ⟨i + 1, by simpa using hi, by rw [start_cons]; omega, by rw [start_cons]; omega⟩
    · exact Or.inr (by rw [List.length_cons, start_cons]; omega)

theorem whole_nil (k : Nat) : Whole [] k := by intro i e h; simp at h

theorem whole_cons (e : Hdr × Bytes) (es : List (Hdr × Bytes)) (k : Nat) :
    Whole (e :: es) k ↔ 512 + e.2.length ≤ k ∧ Whole es (k - room e) := by
  constructor
  · intro h
    refine ⟨by have := h 0 e rfl; rw [start_zero] at this; omega, fun i x hx => ?_⟩
    have := h (i + 1) x (by simpa using hx)
    rw [start_cons] at this
    omega
  · rintro ⟨h1, h2⟩ i x hx
    cases i with
    | zero =>
      obtain rfl : e = x := by simpa using hx
      rw [start_zero]; omega
    | succ i =>
      have := h2 i x (by simpa using hx)
      rw [start_cons]; omega

/-- an entry without the times that the comparison leaves out -/
def bare (e : Hdr × Bytes) : Hdr × Bytes := ({ e.1 with modTime := 0, accessTime := 0 }, e.2)

/-- comparing the same programs with the beginning of an archive -/
theorem cmp_same {n : Nat} {xs es : List (Hdr × Bytes)} (k : Nat) (hm : xs.map bare = es.map bare) (hn : ∀ e ∈ xs, e.2.length < n) :
    (Inside es k → ∃ e, layersEqualLoop n .eof (cutArch es k).tail (xs.map full) (cutArch es k).entries = some (.error e)) ∧
    (¬ Inside es k → Whole es k → layersEqualLoop n .eof (cutArch es k).tail (xs.map full) (cutArch es k).entries = some (.ok true)) ∧
    (¬ Inside es k → ¬ Whole es k →
      layersEqualLoop n .eof (cutArch es k).tail (xs.map full) (cutArch es k).entries = some (.ok false)) := by
  induction es generalizing k xs with
  | nil =>
    obtain rfl : xs = [] := by simpa using hm
    rw [inside_nil]
    refine ⟨fun h => ?_, fun h _ => ?_, fun _ h => absurd (whole_nil k) h⟩
    · simp only [cutArch, List.map_nil]
      rw [if_neg (by omega)]
      exact ⟨(), rfl⟩
    · simp only [cutArch, List.map_nil]
      rw [if_pos (by omega)]
      rfl
  | cons e es ih =>
    cases xs with
    | nil => simp at hm
    | cons x xs =>
      rw [List.map_cons, List.map_cons, List.cons_eq_cons] at hm
      obtain ⟨hx, hm⟩ := hm
      have hh : headersEqual x.1 e.1 = true := (headersEqual_iff _ _).mpr (congrArg Prod.fst hx)
      have hb : x.2 = e.2 := (congrArg Prod.snd hx : (bare x).2 = (bare e).2)
      have hr : 512 + e.2.length ≤ room e := by unfold room; omega
      have hlt : x.2.length < n := hn x List.mem_cons_self
      rw [inside_cons, whole_cons, cutArch]
      by_cases k0 : k = 0
      · rw [if_pos k0]
        refine ⟨fun h => ?_, fun _ h => ?_, fun _ _ => ?_⟩
        · omega
        · omega
        · simp [layersEqualLoop]
      · rw [if_neg k0]
        by_cases k1 : k < 512
        · rw [if_pos k1]
          exact ⟨fun _ => ⟨(), by simp [layersEqualLoop]⟩, fun h _ => absurd (Or.inl ⟨by omega, k1⟩) h,
            fun h _ => absurd (Or.inl ⟨by omega, k1⟩) h⟩
        · rw [if_neg k1]
          by_cases k2 : k < 512 + e.2.length
          · rw [if_pos k2]
            have hne : ¬ x.2 = e.2.take (k - 512) := by
              intro h
              have := congrArg List.length h
              rw [List.length_take, hb] at this
              omega
            refine ⟨fun h => ?_, fun _ h => ?_, fun _ _ => ?_⟩
            · omega
            · omega
            · simp only [List.map_cons, full, layersEqualLoop, hh, Bool.not_true, Bool.false_eq_true, if_false]
              rw [readersEqual_proper (by simpa [Fsutil.Spec.data] using hlt) (by simp) (by simp)]
              simp [Fsutil.Spec.data, hne]
          · rw [if_neg k2]
            have hq : readersEqualLoop n ⟨[x.2], .eof⟩ ⟨[e.2], .eof⟩ = some (.ok true) := by
              rw [readersEqual_proper (by simpa [Fsutil.Spec.data] using hlt) (by simp) (by simp)]
              simp [Fsutil.Spec.data, hb]
            by_cases k3 : k < room e
            · rw [if_pos k3]
              refine ⟨fun h => ?_, fun _ h => ?_, fun _ h => ?_⟩
              · omega
              · have hes : es = [] := by
                  cases es with
                  | nil => rfl
                  | cons y ys => have := h.2 0 y rfl; rw [start_zero] at this; omega
                subst hes
                obtain rfl : xs = [] := by simpa using hm
                simp [full, layersEqualLoop, hh, hq]
              · cases xs with
                | nil =>
                  obtain rfl : es = [] := by simpa using hm.symm
                  exact absurd ⟨by omega, whole_nil _⟩ h
                | cons y ys => simp [full, layersEqualLoop, hh, hq]
            · rw [if_neg k3]
              obtain ⟨i1, i2, i3⟩ := ih (k - room e) hm (fun y hy => hn y (List.mem_cons_of_mem _ hy))
              have step : layersEqualLoop n .eof (cutArch es (k - room e)).tail ((x :: xs).map full) (full e :: (cutArch es (k - room e)).entries) =
                  layersEqualLoop n .eof (cutArch es (k - room e)).tail (xs.map full) (cutArch es (k - room e)).entries := by
                simp [full, layersEqualLoop, hh, hq]
              simp only [step]
              refine ⟨fun h => i1 ?_, fun h1 h2 => i2 (fun h => h1 (Or.inr ⟨by omega, h⟩)) h2.2, fun h1 h2 =>
                i3 (fun h => h1 (Or.inr ⟨by omega, h⟩)) (fun h => h2 ⟨by omega, h⟩)⟩
              rcases h with h | h
              · omega
              · exact h.2

/-- comparing any programs with the beginning of an archive that does not end within a header or an end block -/
theorem cmp_any {n : Nat} {xs es : List (Hdr × Bytes)} (k : Nat) (hx : ∀ e ∈ xs, e.2.length = dataSize e.1)
    (he : ∀ e ∈ es, e.2.length = dataSize e.1) (hn : ∀ e ∈ xs, e.2.length < n) (hk : ¬ Inside es k) :
    ∃ b, layersEqualLoop n .eof (cutArch es k).tail (xs.map full) (cutArch es k).entries = some (.ok b) := by
  induction es generalizing k xs with
  | nil =>
    rw [inside_nil] at hk
    simp only [cutArch]
    rw [if_pos (by omega)]
    cases xs <;> simp [layersEqualLoop]
  | cons e es ih =>
    rw [inside_cons] at hk
    rw [cutArch]
    cases xs with
    | nil =>
      by_cases k0 : k = 0
      · simp [k0, layersEqualLoop]
      · rw [if_neg k0, if_neg (by omega)]
        split
        · simp [layersEqualLoop]
        · split <;> simp [layersEqualLoop]
    | cons x xs =>
      have hlt : x.2.length < n := hn x List.mem_cons_self
      by_cases k0 : k = 0
      · simp [k0, layersEqualLoop]
      · rw [if_neg k0, if_neg (by omega)]
        by_cases hh : headersEqual x.1 e.1 = true
        · have hsz : x.2.length = e.2.length := by
            rw [hx x List.mem_cons_self, he e List.mem_cons_self]
            have := (headersEqual_iff _ _).mp hh
            have h1 := congrArg Hdr.size this
            have h2 := congrArg Hdr.typeflag this
            simp only at h1 h2
            unfold dataSize
            rw [h1, h2]
          by_cases k2 : k < 512 + e.2.length
          · rw [if_pos k2]
            have hne : ¬ x.2 = e.2.take (k - 512) := by
              intro h
              have := congrArg List.length h
              rw [List.length_take] at this
              omega
            simp only [List.map_cons, full, layersEqualLoop, hh, Bool.not_true, Bool.false_eq_true, if_false]
            rw [readersEqual_proper (by simpa [Fsutil.Spec.data] using hlt) (by simp) (by simp)]
            simp [Fsutil.Spec.data, hne]
          · rw [if_neg k2]
            have hq : readersEqualLoop n ⟨[x.2], .eof⟩ ⟨[e.2], .eof⟩ = some (.ok (decide (x.2 = e.2))) := by
              rw [readersEqual_proper (by simpa [Fsutil.Spec.data] using hlt) (by simp) (by simp)]
              simp [Fsutil.Spec.data]
            by_cases hb : x.2 = e.2
            · rw [decide_eq_true hb] at hq
              by_cases k3 : k < room e
              · rw [if_pos k3]
                cases xs <;> simp [full, layersEqualLoop, hh, hq]
              · rw [if_neg k3]
                obtain ⟨b, hb'⟩ := ih (xs := xs) (k - room e) (fun y hy => hx y (List.mem_cons_of_mem _ hy))
                  (fun y hy => he y (List.mem_cons_of_mem _ hy)) (fun y hy => hn y (List.mem_cons_of_mem _ hy))
                  (fun h => hk (Or.inr ⟨by omega, h⟩))
                exact ⟨b, by simpa [full, layersEqualLoop, hh, hq] using hb'⟩
            · rw [decide_eq_false hb] at hq
              split <;> simp [full, layersEqualLoop, hh, hq]
        · have hh' : headersEqual x.1 e.1 = false := by simpa using hh
          split
          · simp [full, layersEqualLoop, hh']
          · split <;> simp [full, layersEqualLoop, hh']

/-- the bound in `decision` is large enough -/
theorem bound_ok (new : List (Hdr × Bytes)) : ∀ e ∈ new, e.2.length < (new.flatMap (·.2)).length.succ := by
  intro e he
  rw [List.length_flatMap]
  refine Nat.lt_succ_of_le ?_
  induction new with
  | nil => cases he
  | cons x xs ih =>
    rw [List.map_cons, List.sum_cons]
    rcases List.mem_cons.mp he with rfl | h
    · omega
    · have := ih h
      omega

theorem decision_some {cd : Codec} {new : List (Hdr × Bytes)} (h : Fits cd new) (bs : Bytes) :
    decision cd (some bs) new =
      (layersEqualLoop (new.flatMap (·.2)).length.succ .eof (archOf cd bs).tail (new.map full) (archOf cd bs).entries).map fun r =>
        match r with
        | .error _ => .failed
        | .ok true => .kept
        | .ok false => .written := by
  unfold decision oldOf gobuildOutput layersEqual
  simp only [archOf_tarBytes h]
  cases layersEqualLoop (new.flatMap (·.2)).length.succ .eof (archOf cd bs).tail (new.map full) (archOf cd bs).entries with
  | none => rfl
  | some r =>
    cases r with
    | error e => rfl
    | ok b => cases b <;> rfl

end Fsutil.Crash
