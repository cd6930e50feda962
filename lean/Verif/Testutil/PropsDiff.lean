import Verif.Testutil.Diff
/-! C143: the comparison of layers in tests fails the test exactly if the layers differ. -/
namespace Testutil
open Go

/-- the reading delivers these headers and contents, and this behind the end of the archive, without any error -/
structure Delivers {H : Type} (r : Reading H) (files : List (H × Bytes)) (rest : Bytes) : Prop where
  opens : r.opens = true
  items : r.items = files.map fun f => (f.1, .ok f.2)
  ends : r.ends = true
  rest : r.rest = .ok rest
  closes : r.closes = true

/-- a text from which one sees what it was made of and where it ends -/
def Unambiguous {α : Type} (f : α → Str) : Prop := ∀ a b x y, f a ++ x = f b ++ y → a = b ∧ x = y

theorem dumpItems_ok {H : Type} {t : Texts H} {ends : Bool} {rest : Except Unit Bytes} {items : List (H × Except Unit Bytes)} {s : Str}
    (h : dumpItems t ends (dumpRest t rest) items = .ok s) :
    ∃ (files : List (H × Bytes)) (b : Bytes), items = files.map (fun f => (f.1, .ok f.2)) ∧ ends = true ∧ rest = .ok b := by
  induction items generalizing s with
  | nil =>
    cases ends with
    | false => cases h
    | true =>
      cases rest with
      | error => cases h
      | ok b => exact ⟨[], b, rfl, rfl, rfl⟩
  | cons i items ih =>
    obtain ⟨hd, c⟩ := i
    cases c with
    | error => cases h
    | ok c =>
      simp only [dumpItems] at h
      cases e : dumpItems t ends (dumpRest t rest) items with
      | error => rw [e] at h; cases h
      | ok s' =>
        obtain ⟨files, b, rfl, h2, h3⟩ := ih e
        exact ⟨(hd, c) :: files, b, rfl, h2, h3⟩

/-- the dump of what is delivered -/
def dumpText {H : Type} (t : Texts H) (rest : Bytes) : List (H × Bytes) → Str
  | [] => tagTail ++ t.content rest
  | f :: files => tagHeader ++ t.header f.1 ++ (tagContent ++ t.content f.2) ++ dumpText t rest files

theorem dumpItems_text {H : Type} (t : Texts H) (files : List (H × Bytes)) (rest : Bytes) :
    dumpItems t true (dumpRest t (.ok rest)) (files.map fun f => (f.1, .ok f.2)) = .ok (dumpText t rest files) := by
  induction files with
  | nil => rfl
  | cons f files ih => simp only [List.map_cons, dumpItems, ih, dumpText]

theorem dumpFull_iff {H : Type} {t : Texts H} {r : Reading H} {s : Str} :
    dumpFull t r = .ok s ↔ ∃ files rest, Delivers r files rest ∧ s = dumpText t rest files := by
  constructor
  · intro h
    unfold dumpFull at h
    cases ho : r.opens with
    | false => rw [ho] at h; cases h
    | true =>
      rw [ho] at h
      simp only [Bool.not_true, Bool.false_eq_true, if_false] at h
      cases e : dumpItems t r.ends (dumpRest t r.rest) r.items with
      | error => rw [e] at h; cases h
      | ok s' =>
        rw [e] at h
        cases hc : r.closes with
        | false => rw [hc] at h; cases h
        | true =>
          rw [hc] at h
          injection h with h
          subst h
          obtain ⟨files, b, h1, h2, h3⟩ := dumpItems_ok e
          refine ⟨files, b, ⟨ho, h1, h2, h3, hc⟩, ?_⟩
          rw [h1, h2, h3, dumpItems_text] at e
          injection e with e
          exact e.symm
  · rintro ⟨files, rest, d, rfl⟩
    unfold dumpFull
    rw [d.opens, d.ends, d.rest, d.items, d.closes, dumpItems_text]
    rfl

theorem dumpText_inj {H : Type} {t : Texts H} (hh : Unambiguous t.header) (hc : Unambiguous t.content) {files files' : List (H × Bytes)}
    {rest rest' : Bytes} (h : dumpText t rest files = dumpText t rest' files') : files = files' ∧ rest = rest' := by
  have clash : ∀ x y : Str, tagTail ++ x ≠ tagHeader ++ y := by
    intro x y e
    have := congrArg (fun s => s[2]?) e
    simp [tagTail, tagHeader] at this
  induction files generalizing files' with
  | nil =>
    cases files' with
    | nil =>
      have := List.append_cancel_left h
      have := hc rest rest' [] [] (by simpa using this)
      exact ⟨rfl, this.1⟩
    | cons f' files' =>
      simp only [dumpText, List.append_assoc] at h
      exact absurd h (clash _ _)
  | cons f files ih =>
    cases files' with
    | nil =>
      simp only [dumpText, List.append_assoc] at h
      exact absurd h.symm (clash _ _)
    | cons f' files' =>
      simp only [dumpText, List.append_assoc] at h
      obtain ⟨e1, h⟩ := hh _ _ _ _ (List.append_cancel_left h)
      obtain ⟨e2, h⟩ := hc _ _ _ _ (List.append_cancel_left h)
      obtain ⟨e3, e4⟩ := ih h
      exact ⟨by rw [e3, Prod.ext e1 e2], e4⟩

theorem listItems_ok {H : Type} (files : List (H × Bytes)) :
    listItems true (files.map fun f => (f.1, .ok f.2)) = .ok (files.map (·.1)) := by
  induction files with
  | nil => rfl
  | cons f files ih => simp only [List.map_cons, listItems, ih]

theorem dumpListing_ok {H : Type} {t : Texts H} {r : Reading H} {files : List (H × Bytes)} {rest : Bytes} (d : Delivers r files rest) :
    dumpListing t r = .ok (t.table (files.map (·.1))) := by
  unfold dumpListing
  rw [d.opens, d.ends, d.items, d.closes, listItems_ok]
  rfl

theorem assertFull_true {H : Type} {t : Texts H} (hh : Unambiguous t.header) (hc : Unambiguous t.content) {exp act : Reading H} :
    (assertFull t exp act).1 = true ↔ ∃ files rest, Delivers exp files rest ∧ Delivers act files rest := by
  unfold assertFull
  constructor
  · intro h
    cases ea : dumpFull t exp with
    | error => rw [ea] at h; cases h
    | ok a =>
      rw [ea] at h
      cases eb : dumpFull t act with
      | error => rw [eb] at h; cases h
      | ok b =>
        rw [eb] at h
        by_cases hab : a = b
        · subst hab
          obtain ⟨f1, r1, d1, e1⟩ := dumpFull_iff.1 ea
          obtain ⟨f2, r2, d2, e2⟩ := dumpFull_iff.1 eb
          obtain ⟨rfl, rfl⟩ := dumpText_inj hh hc (e1.symm.trans e2)
          exact ⟨f1, r1, d1, d2⟩
        · simp [hab] at h
  · rintro ⟨files, rest, d1, d2⟩
    rw [dumpFull_iff.2 ⟨files, rest, d1, rfl⟩, dumpFull_iff.2 ⟨files, rest, d2, rfl⟩]
    simp

theorem assertFull_reports {H : Type} {t : Texts H} {exp act : Reading H} :
    (assertFull t exp act).2 = 0 ↔ (assertFull t exp act).1 = true := by
  unfold assertFull
  split
  · simp
  · split
    · simp
    · split <;> simp

/-- C143: if both layers can be read, each time with the same result, `AssertEqualLayers` returns true exactly if the layers have the
same headers and contents in the same order and the same bytes behind the end of the archive.  How the difference of the listings is
shown does not matter.  If it returns true it has not reported anything (but for errors in saving the layers), otherwise it has. -/
theorem C143_equal {H : Type} (t : Texts H) (hh : Unambiguous t.header) (hc : Unambiguous t.content) (diff : Str → Str → Str)
    (saving : Nat) {exp exp2 act act2 : Reading H} {files files' : List (H × Bytes)} {rest rest' : Bytes}
    (h1 : Delivers exp files rest) (h2 : Delivers exp2 files rest) (h3 : Delivers act files' rest') (h4 : Delivers act2 files' rest') :
    ((assertEqualLayers t diff saving exp exp2 act act2).1 = true ↔ files = files' ∧ rest = rest') ∧
    ((assertEqualLayers t diff saving exp exp2 act act2).2 = saving ↔ files = files' ∧ rest = rest') := by
  have uniq : ∀ {r : Reading H} {f f' : List (H × Bytes)} {x x' : Bytes}, Delivers r f x → Delivers r f' x' → f = f' ∧ x = x' := by
    intro r f f' x x' d d'
    constructor
    · have e := d.items.symm.trans d'.items
      have inj : ∀ {f f' : List (H × Bytes)}, f.map (fun f => (f.1, (.ok f.2 : Except Unit Bytes))) = f'.map (fun f => (f.1, .ok f.2)) →
          f = f' := by
        intro f
        induction f with
        | nil => intro f' e; cases f' with
          | nil => rfl
          | cons => cases e
        | cons a f ih => intro f' e; cases f' with
          | nil => cases e
          | cons b f' =>
            simp only [List.map_cons, List.cons.injEq, Prod.mk.injEq, Except.ok.injEq] at e
            rw [ih e.2, Prod.ext e.1.1 e.1.2]
      exact inj e
    · have e := d.rest.symm.trans d'.rest
      injection e
  have full : (assertFull t exp2 act2).1 = true ↔ files = files' ∧ rest = rest' := by
    rw [assertFull_true hh hc]
    constructor
    · rintro ⟨f, r, d, d'⟩
      obtain ⟨rfl, rfl⟩ := uniq d h2
      exact uniq d' h4
    · rintro ⟨rfl, rfl⟩
      exact ⟨files, rest, h2, h4⟩
  have rep := assertFull_reports (t := t) (exp := exp2) (act := act2)
  unfold assertEqualLayers
  rw [dumpListing_ok h1, dumpListing_ok h3]
  by_cases hl : t.table (files.map (·.1)) = t.table (files'.map (·.1))
  · simp only [hl, ne_eq, not_true_eq_false, if_false]
    exact ⟨full, by rw [← full, ← rep]; omega⟩
  · have hne : ¬ (files = files' ∧ rest = rest') := by
      rintro ⟨rfl, -⟩
      exact hl rfl
    simp only [ne_eq, hl, not_false_eq_true, if_true]
    split
    · exact ⟨by simp [hne], by simp [hne]⟩
    · refine ⟨full, ?_⟩
      simp only [hne, iff_false]
      omega

/-- C143, errors: whatever the layers are and however often they can be read, true is only returned if all four readings succeed, and the
second readings of both deliver the same; and when false is returned, something has been reported. -/
theorem C143_errors {H : Type} (t : Texts H) (hh : Unambiguous t.header) (hc : Unambiguous t.content) (diff : Str → Str → Str)
    (saving : Nat) (exp exp2 act act2 : Reading H) :
    ((assertEqualLayers t diff saving exp exp2 act act2).1 = true →
      (∃ files rest, Delivers exp2 files rest ∧ Delivers act2 files rest) ∧
      exp.opens = true ∧ exp.ends = true ∧ exp.closes = true ∧ (∀ i ∈ exp.items, i.2 ≠ .error ()) ∧
      act.opens = true ∧ act.ends = true ∧ act.closes = true ∧ ∀ i ∈ act.items, i.2 ≠ .error ()) ∧
    ((assertEqualLayers t diff saving exp exp2 act act2).1 = false → saving < (assertEqualLayers t diff saving exp exp2 act act2).2) := by
  have list : ∀ {r : Reading H} {s : Str}, dumpListing t r = .ok s →
      r.opens = true ∧ r.ends = true ∧ r.closes = true ∧ ∀ i ∈ r.items, i.2 ≠ .error () := by
    intro r s h
    unfold dumpListing at h
    have items : ∀ {items : List (H × Except Unit Bytes)} {hs : List H}, listItems r.ends items = .ok hs →
        r.ends = true ∧ ∀ i ∈ items, i.2 ≠ .error () := by
      intro items
      induction items with
      | nil => intro hs h; cases he : r.ends with
        | false => rw [he] at h; cases h
        | true => exact ⟨rfl, by simp⟩
      | cons i items ih =>
        intro hs h
        obtain ⟨hd, c⟩ := i
        cases c with
        | error => cases h
        | ok c =>
          simp only [listItems] at h
          cases e : listItems r.ends items with
          | error => rw [e] at h; cases h
          | ok hs' =>
            obtain ⟨h1, h2⟩ := ih e
            refine ⟨h1, fun i hi => ?_⟩
            rw [List.mem_cons] at hi
            rcases hi with rfl | hi
            · simp
            · exact h2 i hi
    cases ho : r.opens with
    | false => rw [ho] at h; cases h
    | true =>
      rw [ho] at h
      simp only [Bool.not_true, Bool.false_eq_true, if_false] at h
      cases e : listItems r.ends r.items with
      | error => rw [e] at h; cases h
      | ok hs =>
        rw [e] at h
        cases hc : r.closes with
        | false => rw [hc] at h; cases h
        | true => exact ⟨rfl, (items e).1, rfl, (items e).2⟩
  have rep := assertFull_reports (t := t) (exp := exp2) (act := act2)
  have full := assertFull_true hh hc (t := t) (exp := exp2) (act := act2)
  unfold assertEqualLayers
  cases e1 : dumpListing t exp with
  | error => simp
  | ok a =>
    cases e2 : dumpListing t act with
    | error => simp
    | ok b =>
      obtain ⟨a1, a2, a3, a4⟩ := list e1
      obtain ⟨b1, b2, b3, b4⟩ := list e2
      by_cases hab : a = b
      · simp only [hab, ne_eq, not_true_eq_false, if_false]
        refine ⟨fun h => ⟨full.1 h, a1, a2, a3, a4, b1, b2, b3, b4⟩, fun h => ?_⟩
        have : (assertFull t exp2 act2).2 ≠ 0 := fun h0 => by rw [rep.1 h0] at h; cases h
        omega
      · simp only [ne_eq, hab, not_false_eq_true, if_true]
        split
        · simp
        · exact ⟨fun h => ⟨full.1 h, a1, a2, a3, a4, b1, b2, b3, b4⟩, fun _ => by simp only; omega⟩

/-! ### a case -/

/-- headers are numbers here; each text begins with its length -/
def sampleTexts : Texts Nat where
  header n := List.replicate n 'h' ++ ['.']
  content b := List.replicate b.length 'c' ++ '.' :: b.map fun x => Char.ofNat x.toNat
  table hs := List.replicate hs.length 'l'

theorem sample_header : Unambiguous sampleTexts.header := by
  intro a b x y h
  simp only [sampleTexts] at h
  induction a generalizing b with
  | zero => cases b with
    | zero => simpa using h
    | succ b => simp [List.replicate_succ] at h
  | succ a ih => cases b with
    | zero => simp [List.replicate_succ] at h
    | succ b =>
      simp only [List.replicate_succ, List.cons_append, List.cons.injEq, true_and] at h
      obtain ⟨h1, h2⟩ := ih b h
      exact ⟨by omega, h2⟩

theorem toNat_small {n : Nat} (h : n < 256) : (Char.ofNat n).toNat = n := by
  unfold Char.ofNat
  rw [dif_pos (by unfold Nat.isValidChar; omega)]
  rfl

theorem sample_content : Unambiguous sampleTexts.content := by
  intro a b x y h
  simp only [sampleTexts, List.append_assoc, List.cons_append] at h
  have len : a.length = b.length ∧ a.map (fun x => Char.ofNat x.toNat) ++ x = b.map (fun x => Char.ofNat x.toNat) ++ y := by
    generalize a.length = n at h ⊢
    generalize b.length = m at h ⊢
    induction n generalizing m with
    | zero => cases m with
      | zero => simpa using h
      | succ m => simp [List.replicate_succ] at h
    | succ n ih => cases m with
      | zero => simp [List.replicate_succ] at h
      | succ m =>
        simp only [List.replicate_succ, List.cons_append, List.cons.injEq, true_and] at h
        obtain ⟨h1, h2⟩ := ih m h
        exact ⟨by omega, h2⟩
  obtain ⟨e1, e2⟩ := List.append_inj len.2 (by simpa using len.1)
  refine ⟨?_, e2⟩
  have inj : ∀ x y : UInt8, Char.ofNat x.toNat = Char.ofNat y.toNat → x = y := by
    intro x y h
    have h := congrArg Char.toNat h
    have hx : x.toNat < 256 := x.toNat_lt
    have hy : y.toNat < 256 := y.toNat_lt
    rw [toNat_small hx, toNat_small hy] at h
    exact UInt8.toNat.inj h
  exact (List.map_inj_right (fun x y h => inj x y h)).1 e1

/-- two layers of which one file has another content: the listings are the same, the test fails -/
example : (assertEqualLayers sampleTexts (fun _ _ => []) 0 ⟨true, [(1, .ok [65]), (2, .ok [])], true, .ok [0], true⟩
      ⟨true, [(1, .ok [65]), (2, .ok [])], true, .ok [0], true⟩ ⟨true, [(1, .ok [66]), (2, .ok [])], true, .ok [0], true⟩
      ⟨true, [(1, .ok [66]), (2, .ok [])], true, .ok [0], true⟩).1 = false ∧
    (assertEqualLayers sampleTexts (fun _ _ => []) 0 ⟨true, [(1, .ok [65]), (2, .ok [])], true, .ok [0], true⟩
      ⟨true, [(1, .ok [65]), (2, .ok [])], true, .ok [0], true⟩ ⟨true, [(1, .ok [65]), (2, .ok [])], true, .ok [0], true⟩
      ⟨true, [(1, .ok [65]), (2, .ok [])], true, .ok [0], true⟩) = (true, 0) := by
  have d : ∀ c, Delivers (⟨true, [(1, .ok [c]), (2, .ok [])], true, .ok [0], true⟩ : Reading Nat) [(1, [c]), (2, [])] [0] :=
    fun c => ⟨rfl, rfl, rfl, rfl, rfl⟩
  have h := C143_equal sampleTexts sample_header sample_content (fun _ _ => []) 0 (d 65) (d 65) (d 66) (d 66)
  have h' := C143_equal sampleTexts sample_header sample_content (fun _ _ => []) 0 (d 65) (d 65) (d 65) (d 65)
  refine ⟨?_, Prod.ext (h'.1.2 ⟨rfl, rfl⟩) (h'.2.2 ⟨rfl, rfl⟩)⟩
  cases e : (assertEqualLayers sampleTexts (fun _ _ => []) 0 ⟨true, [(1, .ok [65]), (2, .ok [])], true, .ok [0], true⟩
      ⟨true, [(1, .ok [65]), (2, .ok [])], true, .ok [0], true⟩ ⟨true, [(1, .ok [66]), (2, .ok [])], true, .ok [0], true⟩
      ⟨true, [(1, .ok [66]), (2, .ok [])], true, .ok [0], true⟩).1 with
  | false => rfl
  | true => exact absurd (h.1.1 e).1 (by decide)

end Testutil
