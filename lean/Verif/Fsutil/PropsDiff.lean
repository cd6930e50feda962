import Verif.Fsutil.Spec
/-! C56, C57, C58: comparing streams and layers. -/
namespace Fsutil
open Go

theorem readUpTo_eq (k : Nat) (cs : List Bytes) :
    (readUpTo k cs).1 = cs.flatten.take k ∧ (readUpTo k cs).2.flatten = cs.flatten.drop k := by
  induction cs generalizing k with
  | nil => simp [readUpTo]
  | cons c cs ih =>
    rw [readUpTo]
    by_cases hk : k = 0
    · subst hk; simp
    · rw [if_neg hk]
      by_cases hl : c.length ≤ k
      · rw [if_pos hl]
        simp only [List.flatten_cons]
        rw [(ih _).1, (ih _).2, List.take_append, List.drop_append, List.take_of_length_le hl, List.drop_of_length_le hl]
        simp
      · rw [if_neg hl]
        simp only [List.flatten_cons]
        rw [List.take_append_of_le_length (by omega), List.drop_append_of_le_length (by omega)]
        exact ⟨rfl, rfl⟩

theorem readFull_data (k : Nat) (r : Rd) :
    (readFull k r).1 = (Spec.data r).take k ∧ Spec.data (readFull k r).2.1 = (Spec.data r).drop k ∧
      (readFull k r).2.1.fin = r.fin := by
  refine ⟨(readUpTo_eq k r.chunks).1, (readUpTo_eq k r.chunks).2, rfl⟩

/-- `ReadFull` ends properly unless the reader fails before the buffer is full -/
theorem readFull_isEnd (k : Nat) (r : Rd) :
    isEnd (readFull k r).2.2 = false ↔ (Spec.data r).length < k ∧ r.fin = .other := by
  have hlen : (readUpTo k r.chunks).1.length = min k (Spec.data r).length := by
    rw [(readUpTo_eq k r.chunks).1, List.length_take]; rfl
  unfold readFull isEnd
  simp only [hlen]
  by_cases h1 : min k (Spec.data r).length ≥ k
  · rw [if_pos h1]
    simp
    omega
  · rw [if_neg h1]
    have : (Spec.data r).length < k := by omega
    cases hf : r.fin with
    | eof => by_cases h2 : 0 < min k (Spec.data r).length <;> simp [h2]
    | unexpectedEOF => simp
    | other => simp [this]

theorem take_split {k : Nat} {x y : Bytes} (h : x.take k = y.take k) : x.drop k = y.drop k ↔ x = y := by
  constructor
  · intro hd
    rw [← List.take_append_drop k x, ← List.take_append_drop k y, h, hd]
  · intro e; rw [e]

/-- the loop ends, with an answer that is right for the bytes delivered -/
theorem readersEqualLoop_spec (n : Nat) (a b : Rd) (hn : (Spec.data a).length < n) :
    ∃ r, readersEqualLoop n a b = some r ∧
      (∀ eq, r = .ok eq → (eq = true ↔ Spec.data a = Spec.data b) ∧ (eq = true → a.fin ≠ .other ∧ b.fin ≠ .other)) ∧
      (∀ e, r = .error e → a.fin = .other ∨ b.fin = .other) := by
  induction n generalizing a b with
  | zero => omega
  | succ n ih =>
    rw [readersEqualLoop]
    simp only
    by_cases ha : isEnd (readFull chunkSize a).2.2 = false
    · rw [if_pos (by simp [ha])]
      exact ⟨_, rfl, by simp, fun _ _ => Or.inl ((readFull_isEnd _ _).mp ha).2⟩
    rw [if_neg (by simpa using ha)]
    by_cases hb : isEnd (readFull chunkSize b).2.2 = false
    · rw [if_pos (by simp [hb])]
      exact ⟨_, rfl, by simp, fun _ _ => Or.inr ((readFull_isEnd _ _).mp hb).2⟩
    rw [if_neg (by simpa using hb)]
    have da := readFull_data chunkSize a
    have db := readFull_data chunkSize b
    by_cases he : (readFull chunkSize a).1 = (readFull chunkSize b).1
    · rw [if_neg (by simpa using he)]
      rw [da.1, db.1] at he
      by_cases hl : (readFull chunkSize a).1.length < chunkSize
      · rw [if_pos hl]
        rw [da.1, List.length_take] at hl
        have hla : (Spec.data a).length < chunkSize := by omega
        have hlb : (Spec.data b).length < chunkSize := by
          have := congrArg List.length he
          rw [List.length_take, List.length_take] at this; omega
        rw [List.take_of_length_le (by omega), List.take_of_length_le (by omega)] at he
        refine ⟨_, rfl, ?_, by simp⟩
        intro eq h
        cases h
        refine ⟨by simp [he], fun _ => ⟨fun hf => ha ((readFull_isEnd _ _).mpr ⟨hla, hf⟩), fun hf => hb ((readFull_isEnd _ _).mpr ⟨hlb, hf⟩)⟩⟩
      · rw [if_neg hl]
        rw [da.1, List.length_take] at hl
        have hc : chunkSize = 1024 := rfl
        obtain ⟨r, h1, h2, h3⟩ := ih (readFull chunkSize a).2.1 (readFull chunkSize b).2.1
          (by rw [da.2.1, List.length_drop]; omega)
        refine ⟨r, h1, ?_, ?_⟩
        · intro eq h
          have := h2 eq h
          rw [da.2.1, db.2.1, da.2.2, db.2.2, take_split he] at this
          exact this
        · intro e h
          have := h3 e h
          rwa [da.2.2, db.2.2] at this
    · rw [if_pos he]
      refine ⟨_, rfl, ?_, by simp⟩
      intro eq h
      cases h
      refine ⟨⟨by simp, ?_⟩, by simp⟩
      intro e
      rw [da.1, db.1, e] at he
      exact absurd rfl he

/-- **C56**, part: `readersEqual` always ends.  For readers that end properly it returns whether they deliver the same
bytes, however these are split into chunks.  For any readers: if it answers, the answer says whether the bytes delivered
are the same; if it answers `true`, no reader failed with an error other than `io.ErrUnexpectedEOF`; if it reports an error,
one of the readers failed.  Missing: a reader failing with `io.ErrUnexpectedEOF` is not reported, see `C56_violated`. -/
theorem C56_readers_partial (a b : Rd) :
    ∃ N, ∀ n, N ≤ n → ∃ r, readersEqualLoop n a b = some r ∧
      (a.fin = .eof → b.fin = .eof → r = .ok (decide (a.chunks.flatten = b.chunks.flatten))) ∧
      (∀ eq, r = .ok eq → (eq = true ↔ a.chunks.flatten = b.chunks.flatten) ∧ (eq = true → a.fin ≠ .other ∧ b.fin ≠ .other)) ∧
      (∀ e, r = .error e → a.fin = .other ∨ b.fin = .other) := by
  refine ⟨(Spec.data a).length + 1, fun n hn => ?_⟩
  obtain ⟨r, h1, h2, h3⟩ := readersEqualLoop_spec n a b (by omega)
  refine ⟨r, h1, ?_, h2, h3⟩
  intro ea eb
  cases r with
  | error e => rcases h3 e rfl with h | h <;> simp_all
  | ok eq =>
    have : eq = true ↔ a.chunks.flatten = b.chunks.flatten := (h2 eq rfl).1
    cases eq with
    | true => rw [decide_eq_true (this.mp rfl)]
    | false =>
      rw [decide_eq_false]
      intro h
      exact absurd (this.mpr h) (by simp)

/-- **C56 does not hold** in full: a reader that fails with `io.ErrUnexpectedEOF` (a truncated stream) is taken for one that
ended, and the comparison reports equality and no error. -/
theorem C56_violated (d : Bytes) :
    ∃ N, ∀ n, N ≤ n → readersEqualLoop n ⟨[d], .unexpectedEOF⟩ ⟨[d], .eof⟩ = some (.ok true) := by
  refine ⟨d.length + 1, fun n hn => ?_⟩
  obtain ⟨r, h1, h2, h3⟩ := readersEqualLoop_spec n ⟨[d], .unexpectedEOF⟩ ⟨[d], .eof⟩ (by simp [Spec.data]; omega)
  rw [h1]
  cases r with
  | error e => rcases h3 e rfl with h | h <;> cases h
  | ok eq => rw [((h2 eq rfl).1).mpr rfl]

/-- 2048 bytes, in pieces of 2048 and of 3 and the rest; and one byte more -/
example : let z := List.replicate 2048 (5 : UInt8)
    readersEqualLoop 4 ⟨[z], .eof⟩ ⟨[z.take 3, [], z.drop 3], .eof⟩ = some (.ok true) ∧
    readersEqualLoop 4 ⟨[z], .eof⟩ ⟨[z, [1]], .eof⟩ = some (.ok false) ∧
    readersEqualLoop 4 ⟨[z], .eof⟩ ⟨[z], .other⟩ = some (.error ()) := by decide +kernel

/-! ### layers -/

theorem headersEqual_iff (a b : Hdr) :
    headersEqual a b = true ↔ { a with modTime := 0, accessTime := 0 } = { b with modTime := 0, accessTime := 0 } := by
  obtain ⟨⟩ := a
  obtain ⟨⟩ := b
  simp [headersEqual]

/-- entries without modification and access times -/
def eraseMA (e : Hdr × Rd) : Hdr × Bytes := ({ e.1 with modTime := 0, accessTime := 0 }, Spec.data e.2)

theorem readersEqual_proper {n : Nat} {a b : Rd} (hn : (Spec.data a).length < n) (ha : a.fin ≠ .other) (hb : b.fin ≠ .other) :
    readersEqualLoop n a b = some (.ok (decide (Spec.data a = Spec.data b))) := by
  obtain ⟨r, h1, h2, h3⟩ := readersEqualLoop_spec n a b hn
  rw [h1]
  cases r with
  | error e => rcases h3 e rfl with h | h <;> contradiction
  | ok eq =>
    have := (h2 eq rfl).1
    cases eq with
    | true => rw [decide_eq_true (this.mp rfl)]
    | false =>
      rw [decide_eq_false]
      intro h
      exact absurd (this.mpr h) (by simp)

theorem layersEqualLoop_intact {n : Nat} {xs ys : List (Hdr × Rd)} (hn : ∀ e ∈ xs, (Spec.data e.2).length < n)
    (hx : ∀ e ∈ xs, e.2.fin = .eof) (hy : ∀ e ∈ ys, e.2.fin = .eof) :
    layersEqualLoop n .eof .eof xs ys = some (.ok (decide (xs.map eraseMA = ys.map eraseMA))) := by
  induction xs generalizing ys with
  | nil => cases ys <;> simp [layersEqualLoop]
  | cons x xs ih =>
    cases ys with
    | nil => simp [layersEqualLoop]
    | cons y ys =>
      rw [layersEqualLoop]
      by_cases hh : headersEqual x.1 y.1 = true
      · rw [if_neg (by simp [hh])]
        rw [readersEqual_proper (hn x (by simp)) (by rw [hx x (by simp)]; decide) (by rw [hy y (by simp)]; decide)]
        have hh' := (headersEqual_iff _ _).mp hh
        by_cases hd : Spec.data x.2 = Spec.data y.2
        · rw [decide_eq_true hd]
          simp only
          rw [ih (fun e he => hn e (by simp [he])) (fun e he => hx e (by simp [he])) (fun e he => hy e (by simp [he]))]
          congr 2
          rw [List.map_cons, List.map_cons, show eraseMA x = eraseMA y by unfold eraseMA; rw [hh', hd]]
          simp
        · rw [decide_eq_false hd]
          simp only
          rw [decide_eq_false]
          intro h
          rw [List.map_cons, List.map_cons, List.cons.injEq] at h
          exact hd (congrArg Prod.snd h.1)
      · rw [if_pos (by simpa using hh), decide_eq_false]
        intro h
        rw [List.map_cons, List.map_cons, List.cons.injEq] at h
        exact hh ((headersEqual_iff _ _).mpr (congrArg Prod.fst h.1))

theorem layersEqualLoop_true {n : Nat} {ta tb : RErr} {xs ys : List (Hdr × Rd)} (hn : ∀ e ∈ xs, (Spec.data e.2).length < n)
    (h : layersEqualLoop n ta tb xs ys = some (.ok true)) :
    ta = .eof ∧ tb = .eof ∧ xs.map eraseMA = ys.map eraseMA := by
  induction xs generalizing ys with
  | nil =>
    cases ys with
    | nil =>
      rw [layersEqualLoop] at h
      by_cases h1 : ta = .eof
      · by_cases h2 : tb = .eof
        · exact ⟨h1, h2, rfl⟩
        · rw [if_neg (by simp [h1]), if_pos h2] at h; simp at h
      · rw [if_pos h1] at h; simp at h
    | cons y ys =>
      rw [layersEqualLoop] at h
      split at h <;> simp at h
  | cons x xs ih =>
    cases ys with
    | nil =>
      rw [layersEqualLoop] at h
      split at h <;> simp at h
    | cons y ys =>
      rw [layersEqualLoop] at h
      by_cases hh : headersEqual x.1 y.1 = true
      · rw [if_neg (by simp [hh])] at h
        obtain ⟨r, h1, h2, h3⟩ := readersEqualLoop_spec n x.2 y.2 (hn x (by simp))
        rw [h1] at h
        match r, h, h2 with
        | .ok true, h, h2 =>
          have := ih (fun e he => hn e (by simp [he])) h
          refine ⟨this.1, this.2.1, ?_⟩
          rw [List.map_cons, List.map_cons, this.2.2]
          congr 1
          unfold eraseMA
          rw [(headersEqual_iff _ _).mp hh, ((h2 true rfl).1).mp rfl]
      · rw [if_pos (by simpa using hh)] at h; simp at h

theorem layersEqual_true {n : Nat} {a b : Opened} (h : layersEqual n a b = some (.ok true)) :
    ∃ x y, a = .ok (x, false) ∧ b = .ok (y, false) ∧ layersEqualLoop n x.tail y.tail x.entries y.entries = some (.ok true) := by
  unfold layersEqual at h
  match a, b, h with
  | .ok (x, xc), .ok (y, yc), h =>
    simp only at h
    cases hl : layersEqualLoop n x.tail y.tail x.entries y.entries with
    | none => rw [hl] at h; simp at h
    | some r =>
      rw [hl] at h
      cases r with
      | error e => simp [Except.bind] at h
      | ok eq =>
        cases xc <;> cases yc <;> simp [Except.bind] at h
        subst h
        exact ⟨x, y, rfl, rfl, hl⟩
  | .ok (x, xc), .error e, h => simp at h
  | .error e, _, h => simp at h

theorem timeless_of_eraseMA {xs ys : List (Hdr × Rd)} (h : xs.map eraseMA = ys.map eraseMA) :
    xs.map (fun e => (Spec.timeless e.1, Spec.data e.2)) = ys.map (fun e => (Spec.timeless e.1, Spec.data e.2)) := by
  have key : ∀ e : Hdr × Rd, (Spec.timeless e.1, Spec.data e.2) = (fun p : Hdr × Bytes => (Spec.timeless p.1, p.2)) (eraseMA e) :=
    fun _ => rfl
  have : (fun e : Hdr × Rd => (Spec.timeless e.1, Spec.data e.2)) = (fun p : Hdr × Bytes => (Spec.timeless p.1, p.2)) ∘ eraseMA := by
    funext e; exact key e
  rw [this, ← List.map_map, ← List.map_map, h]

/-- **C57**, soundness, with no condition on the headers: if the comparison says that the layers are equal, both were read
to their end and they have the same entries, contents and headers but for the timestamps. -/
theorem C57_sound {n : Nat} {a b : Opened} (hn : ∀ x c, a = .ok (x, c) → Spec.Enough n x)
    (h : layersEqual n a b = some (.ok true)) :
    ∃ x y, a = .ok (x, false) ∧ b = .ok (y, false) ∧ x.tail = .eof ∧ y.tail = .eof ∧ Spec.SameButTimes x y := by
  obtain ⟨x, y, ha, hb, hl⟩ := layersEqual_true h
  obtain ⟨h1, h2, h3⟩ := layersEqualLoop_true (hn x false ha) hl
  exact ⟨x, y, ha, hb, h1, h2, timeless_of_eraseMA h3⟩

/-- **C57**, part: for layers that can be read, and whose headers all have the same change time (as when the tar format does
not record it), the comparison says exactly whether the layers are the same but for the timestamps.  Missing: layers with
different change times, see `C57_violated`. -/
theorem C57_exact_partial {n : Nat} {x y : Arch} (hn : Spec.Enough n x) (hx : Spec.Intact x) (hy : Spec.Intact y) (ct : Int)
    (hcx : ∀ e ∈ x.entries, e.1.changeTime = ct) (hcy : ∀ e ∈ y.entries, e.1.changeTime = ct) :
    layersEqual n (.ok (x, false)) (.ok (y, false)) = some (.ok (decide (Spec.SameButTimes x y))) := by
  unfold layersEqual
  simp only
  rw [hx.1, hy.1, layersEqualLoop_intact hn hx.2 hy.2]
  simp only [Option.map_some, Except.bind, Bool.or_false, Bool.false_eq_true, if_false]
  congr 3
  apply propext
  constructor
  · exact timeless_of_eraseMA
  · intro h
    have key : ∀ {xs : List (Hdr × Rd)}, (∀ e ∈ xs, e.1.changeTime = ct) →
        xs.map eraseMA = (xs.map (fun e => (Spec.timeless e.1, Spec.data e.2))).map (fun p => ({ p.1 with changeTime := ct }, p.2)) := by
      intro xs hc
      rw [List.map_map]
      apply List.map_congr_left
      intro e he
      have := hc e he
      obtain ⟨⟨⟩, r⟩ := e
      simp only at this
      subst this
      rfl
    rw [key hcx, key hcy]
    exact congrArg _ h

/-- **C57**, what the comparison says of any two layers that can be read: whether they are the same but for the timestamps and
have the same change times, entry by entry. -/
theorem C57_exact {n : Nat} {x y : Arch} (hn : Spec.Enough n x) (hx : Spec.Intact x) (hy : Spec.Intact y) :
    layersEqual n (.ok (x, false)) (.ok (y, false)) =
      some (.ok (decide (Spec.SameButTimes x y ∧ x.entries.map (·.1.changeTime) = y.entries.map (·.1.changeTime)))) := by
  unfold layersEqual
  simp only
  rw [hx.1, hy.1, layersEqualLoop_intact hn hx.2 hy.2]
  simp only [Option.map_some, Except.bind, Bool.or_false, Bool.false_eq_true, if_false]
  congr 3
  apply propext
  constructor
  · intro h
    refine ⟨timeless_of_eraseMA h, ?_⟩
    have := congrArg (List.map (fun p : Hdr × Bytes => p.1.changeTime)) h
    rw [List.map_map, List.map_map] at this
    exact this
  · rintro ⟨h1, h2⟩
    have h1 : x.entries.map (fun e => (Spec.timeless e.1, Spec.data e.2)) = y.entries.map (fun e => (Spec.timeless e.1, Spec.data e.2)) := h1
    revert h2
    revert h1
    generalize x.entries = xs
    generalize y.entries = ys
    induction xs generalizing ys with
    | nil =>
      intro h _
      cases ys with
      | nil => rfl
      | cons _ _ => cases h
    | cons e xs ih =>
      intro h1 h2
      cases ys with
      | nil => cases h1
      | cons f ys =>
        rw [List.map_cons, List.map_cons, List.cons.injEq, Prod.mk.injEq] at h1
        rw [List.map_cons, List.map_cons, List.cons.injEq] at h2
        rw [List.map_cons, List.map_cons, ih ys h1.2 h2.2]
        congr 1
        have key : ∀ g : Hdr × Rd, eraseMA g = ({ Spec.timeless g.1 with changeTime := g.1.changeTime }, Spec.data g.2) := fun _ => rfl
        rw [key, key, h1.1.1, h1.1.2, h2.1]

/-- the comparison ends, and reports an error only if a layer cannot be opened, read or closed -/
theorem C57_error_only_if_unreadable {n : Nat} {a b : Opened} (hn : ∀ x c, a = .ok (x, c) → Spec.Enough n x) :
    ∃ r, layersEqual n a b = some r ∧
      ∀ e, r = .error e → (¬ ∃ x, a = .ok (x, false) ∧ Spec.Intact x) ∨ (¬ ∃ y, b = .ok (y, false) ∧ Spec.Intact y) := by
  match a, b with
  | .error e, b => exact ⟨_, rfl, fun _ _ => Or.inl (by rintro ⟨x, h, _⟩; cases h)⟩
  | .ok (x, xc), .error e => exact ⟨_, rfl, fun _ _ => Or.inr (by rintro ⟨x, h, _⟩; cases h)⟩
  | .ok (x, xc), .ok (y, yc) =>
    have ends : ∀ (xs ys : List (Hdr × Rd)), (∀ e ∈ xs, (Spec.data e.2).length < n) →
        ∃ r, layersEqualLoop n x.tail y.tail xs ys = some r := by
      intro xs
      induction xs with
      | nil =>
        intro ys _
        cases ys <;> rw [layersEqualLoop]
        · by_cases h1 : x.tail ≠ .eof
          · rw [if_pos h1]; exact ⟨_, rfl⟩
          · rw [if_neg h1]; split <;> exact ⟨_, rfl⟩
        · split <;> exact ⟨_, rfl⟩
      | cons e xs ih =>
        intro ys hl
        cases ys with
        | nil => rw [layersEqualLoop]; split <;> exact ⟨_, rfl⟩
        | cons f ys =>
          rw [layersEqualLoop]
          split
          · exact ⟨_, rfl⟩
          · obtain ⟨r, h1, _⟩ := readersEqualLoop_spec n e.2 f.2 (hl e (by simp))
            rw [h1]
            match r with
            | .error _ => exact ⟨_, rfl⟩
            | .ok false => exact ⟨_, rfl⟩
            | .ok true => exact ih ys (fun e he => hl e (by simp [he]))
    obtain ⟨r, hr⟩ := ends x.entries y.entries (hn x xc rfl)
    unfold layersEqual
    simp only
    rw [hr]
    refine ⟨_, rfl, ?_⟩
    intro e he
    by_cases hx : ∃ x', (Except.ok (x, xc) : Opened) = .ok (x', false) ∧ Spec.Intact x'
    · by_cases hy : ∃ y', (Except.ok (y, yc) : Opened) = .ok (y', false) ∧ Spec.Intact y'
      · exfalso
        obtain ⟨_, hx, ix⟩ := hx
        obtain ⟨_, hy, iy⟩ := hy
        cases hx
        cases hy
        have h4 := layersEqualLoop_intact (hn x false rfl) ix.2 iy.2
        rw [← ix.1] at h4
        have : layersEqualLoop n x.tail y.tail x.entries y.entries =
            some (.ok (decide (x.entries.map eraseMA = y.entries.map eraseMA))) := by
          rw [ix.1, iy.1]; exact layersEqualLoop_intact (hn x false rfl) ix.2 iy.2
        rw [hr] at this
        cases this
        simp [Except.bind] at he
      · exact Or.inr hy
    · exact Or.inl hx

/-- **C57**: the relation "the comparison says equal" is an equivalence on layers that can be read -/
theorem C57_equivalence {n : Nat} {x y z : Arch} (nx : Spec.Enough n x) (ny : Spec.Enough n y)
    (hx : Spec.Intact x) (hy : Spec.Intact y) (hz : Spec.Intact z) :
    let eq := fun a b : Arch => layersEqual n (.ok (a, false)) (.ok (b, false)) = some (.ok true)
    eq x x ∧ (eq x y → eq y x) ∧ (eq x y → eq y z → eq x z) := by
  have key : ∀ {a b : Arch}, Spec.Enough n a → Spec.Intact a → Spec.Intact b →
      (layersEqual n (.ok (a, false)) (.ok (b, false)) = some (.ok true) ↔ a.entries.map eraseMA = b.entries.map eraseMA) := by
    intro a b na ha hb
    unfold layersEqual
    simp only
    rw [ha.1, hb.1, layersEqualLoop_intact na ha.2 hb.2]
    simp [Except.bind]
  refine ⟨(key nx hx hx).mpr rfl, ?_, ?_⟩
  · intro h; exact (key ny hy hx).mpr ((key nx hx hy).mp h).symm
  · intro h1 h2; exact (key nx hx hz).mpr (((key nx hx hy).mp h1).trans ((key ny hy hz).mp h2))

def diffHdr (m a c : Int) : Hdr := ⟨"f".toList, '0', [], 3, 0o644, 0, 0, [], [], m, a, c, [], []⟩

/-- **C57 does not hold** in full: the change time is compared (diff.go:39-41 set ModTime twice and ChangeTime never), so
two layers that differ in nothing else are reported to differ. -/
theorem C57_violated : ∃ x y : Arch, Spec.Intact x ∧ Spec.Intact y ∧ Spec.SameButTimes x y ∧
    ∀ n, 4 ≤ n → layersEqual n (.ok (x, false)) (.ok (y, false)) = some (.ok false) := by
  refine ⟨⟨[(diffHdr 1 1 1, ⟨[[1, 2, 3]], .eof⟩)], .eof⟩, ⟨[(diffHdr 1 1 2, ⟨[[1, 2, 3]], .eof⟩)], .eof⟩,
    ⟨rfl, by decide⟩, ⟨rfl, by decide⟩, by decide, ?_⟩
  intro n hn
  unfold layersEqual
  simp only
  rw [layersEqualLoop_intact (by intro e he; rw [List.mem_singleton.mp he]; exact hn) (by decide) (by decide)]
  decide

/-- the hypotheses are met by layers with different modification and access times, and by layers that differ in content -/
example :
    let x : Arch := ⟨[(diffHdr 1 2 0, ⟨[[1, 2, 3]], .eof⟩)], .eof⟩
    let y : Arch := ⟨[(diffHdr 5 6 0, ⟨[[1], [2, 3]], .eof⟩)], .eof⟩
    let z : Arch := ⟨[(diffHdr 1 2 0, ⟨[[1, 2, 4]], .eof⟩)], .eof⟩
    Spec.Enough 4 x ∧ Spec.Intact x ∧ Spec.Intact y ∧ Spec.SameButTimes x y ∧ ¬ Spec.SameButTimes x z ∧
    layersEqual 4 (.ok (x, false)) (.ok (y, false)) = some (.ok true) ∧
    layersEqual 4 (.ok (x, false)) (.ok (z, false)) = some (.ok false) :=
  ⟨by unfold Spec.Enough; decide, ⟨rfl, by decide⟩, ⟨rfl, by decide⟩, by decide, by decide, by decide +kernel, by decide +kernel⟩

/-! ### `layer gobuild --output` -/

/-- **C58**, soundness: if the old file is kept, it holds a layer that is the same as the new one but for the timestamps -/
theorem C58_kept_sound {n : Nat} {old : Old} {new : Opened} {w : Bool} (hn : ∀ x c, new = .ok (x, c) → Spec.Enough n x)
    (h : gobuildOutput n old new w = some .kept) :
    ∃ x y, new = .ok (x, false) ∧ old = .layer (.ok (y, false)) ∧ Spec.SameButTimes x y := by
  unfold gobuildOutput at h
  match old, h with
  | .absent, h => cases w <;> simp at h
  | .fails, h => simp at h
  | .layer o, h =>
    simp only at h
    cases hl : layersEqual n new o with
    | none => rw [hl] at h; simp at h
    | some r =>
      rw [hl] at h
      match r, h with
      | .error _, h => simp at h
      | .ok false, h => cases w <;> simp at h
      | .ok true, h =>
        obtain ⟨x, y, h1, h2, _, _, h3⟩ := C57_sound hn hl
        exact ⟨x, y, h1, by rw [h2], h3⟩

/-- **C58**, part: when the old file is absent, or holds a layer that can be read, with no change times recorded in either
layer, and the file can be written, then the file is rewritten if it is absent or differs from the new layer in more than
timestamps, and kept otherwise.  Missing: layers with change times, see `C58_violated`. -/
theorem C58_rewritten_iff_partial {n : Nat} {x : Arch} (hn : Spec.Enough n x) (hx : Spec.Intact x) (ct : Int)
    (hcx : ∀ e ∈ x.entries, e.1.changeTime = ct) :
    gobuildOutput n .absent (.ok (x, false)) true = some .written ∧
    ∀ y : Arch, Spec.Intact y → (∀ e ∈ y.entries, e.1.changeTime = ct) →
      (¬ Spec.SameButTimes x y → gobuildOutput n (.layer (.ok (y, false))) (.ok (x, false)) true = some .written) ∧
      (Spec.SameButTimes x y → gobuildOutput n (.layer (.ok (y, false))) (.ok (x, false)) true = some .kept) := by
  refine ⟨rfl, ?_⟩
  intro y hy hcy
  unfold gobuildOutput
  simp only
  rw [C57_exact_partial hn hx hy ct hcx hcy]
  constructor
  · intro h; rw [decide_eq_false h]; rfl
  · intro h; rw [decide_eq_true h]; rfl

/-- **C58**, what happens to any old file that holds a layer that can be read: it is kept if it is the same as the new one but for the
timestamps and has the same change times, and rewritten otherwise (or the command fails, if the file cannot be written). -/
theorem C58_exact {n : Nat} {x y : Arch} (hn : Spec.Enough n x) (hx : Spec.Intact x) (hy : Spec.Intact y) (w : Bool) :
    gobuildOutput n (.layer (.ok (y, false))) (.ok (x, false)) w =
      some (if Spec.SameButTimes x y ∧ x.entries.map (·.1.changeTime) = y.entries.map (·.1.changeTime) then .kept
        else if w then .written else .failed) := by
  unfold gobuildOutput
  simp only
  rw [C57_exact hn hx hy]
  by_cases h : Spec.SameButTimes x y ∧ x.entries.map (·.1.changeTime) = y.entries.map (·.1.changeTime)
  · rw [decide_eq_true h, if_pos h]; rfl
  · rw [decide_eq_false h, if_neg h]; rfl

/-- an old file that cannot be read is an error: it is neither kept silently as equal nor overwritten -/
theorem C58_unreadable {n : Nat} {old : Old} {new : Opened} {w : Bool}
    (h : old = .fails ∨ ∃ e, old = .layer (.error e) ∧ ∃ x, new = .ok x) : gobuildOutput n old new w = some .failed := by
  rcases h with rfl | ⟨e, rfl, x, rfl⟩ <;> rfl

/-- **C58 does not hold** in full: two layers that differ only in a change time make the file be rewritten -/
theorem C58_violated : ∃ x y : Arch, Spec.Intact x ∧ Spec.Intact y ∧ Spec.SameButTimes x y ∧
    ∀ n, 4 ≤ n → gobuildOutput n (.layer (.ok (y, false))) (.ok (x, false)) true = some .written := by
  obtain ⟨x, y, hx, hy, hs, h⟩ := C57_violated
  refine ⟨x, y, hx, hy, hs, fun n hn => ?_⟩
  unfold gobuildOutput
  simp only
  rw [h n hn]
  rfl

/-- the hypotheses of the theorems on C58 are met: a layer with other times (kept), one with another content (rewritten, or
failed if the file cannot be written), an absent file, and an old file that is no layer -/
example :
    let x : Arch := ⟨[(diffHdr 1 2 0, ⟨[[1, 2, 3]], .eof⟩)], .eof⟩
    let y : Arch := ⟨[(diffHdr 5 6 0, ⟨[[1], [2, 3]], .eof⟩)], .eof⟩
    let z : Arch := ⟨[(diffHdr 1 2 0, ⟨[[1, 2, 4]], .eof⟩)], .eof⟩
    gobuildOutput 4 (.layer (.ok (y, false))) (.ok (x, false)) true = some .kept ∧
    gobuildOutput 4 (.layer (.ok (z, false))) (.ok (x, false)) true = some .written ∧
    gobuildOutput 4 (.layer (.ok (z, false))) (.ok (x, false)) false = some .failed ∧
    gobuildOutput 4 .absent (.ok (x, false)) true = some .written ∧
    gobuildOutput 4 (.layer (.error ())) (.ok (x, false)) true = some .failed :=
  ⟨by decide +kernel, by decide +kernel, by decide +kernel, rfl, rfl⟩

end Fsutil
