import Verif.Squash.Stream
/-! C127: layers that cannot be read. -/
namespace Squash.Stream
open Go

namespace Spec

/-- the layer can be opened, its entries are these, all of their contents can be read, and the archive ends where it should -/
def Holds (l : Layer) (es : List Entry) : Prop :=
  l.opens = true ∧ l.ends = true ∧ l.items = es.map fun e => ⟨e.header, .ok e.body⟩

/-- the whole of the layer can be read -/
def Readable (l : Layer) : Prop := (∃ es, Holds l es) ∧ l.rest = true ∧ l.closes = true

/-- layers one by one -/
def HoldAll : List Layer → List (List Entry) → Prop
  | [], [] => True
  | l :: ls, es :: ess => Holds l es ∧ HoldAll ls ess
  | _, _ => False

end Spec

theorem parseItems_holds (o : Bool) (es : List Entry) :
    parseItems o true (es.map fun e => ⟨e.header, .ok e.body⟩) = Squash.parseLayer o es := by
  induction es with
  | nil => rfl
  | cons e es ih =>
    simp only [List.map_cons, parseItems, Squash.parseLayer, ih]
    split <;> rfl

theorem parseItems_ok {o ends : Bool} {is : List Item} {r : List Entry × List Entry} (h : parseItems o ends is = .ok r) :
    ends = true ∧ ∃ es : List Entry, is = es.map fun e => ⟨e.header, .ok e.body⟩ := by
  induction is generalizing r with
  | nil =>
    cases ends with
    | false => cases h
    | true => exact ⟨rfl, [], rfl⟩
  | cons i is ih =>
    simp only [parseItems] at h
    split at h
    · cases h
    · split at h
      · cases h
      · rename_i b hb
        split at h
        · cases h
        · rename_i ws fs hp
          obtain ⟨h1, es, h2⟩ := ih hp
          refine ⟨h1, ⟨i.header, b⟩ :: es, ?_⟩
          rw [List.map_cons, ← h2, ← hb]

theorem parseLayer_holds {l : Layer} {es : List Entry} (h : Spec.Holds l es) (o : Bool) : parseLayer o l = Squash.parseLayer o es := by
  unfold parseLayer
  rw [if_pos h.1, h.2.1, h.2.2, parseItems_holds]

theorem parseLayer_ok {l : Layer} {o : Bool} {r : List Entry × List Entry} (h : parseLayer o l = .ok r) : ∃ es, Spec.Holds l es := by
  unfold parseLayer at h
  split at h
  · rename_i ho
    obtain ⟨h1, es, h2⟩ := parseItems_ok h
    exact ⟨es, ho, h1, h2⟩
  · cases h

theorem loadFrom_holds (n : Nat) (o : Bool) {ls : List Layer} {ess : List (List Entry)} (h : Spec.HoldAll ls ess) (S : FS) :
    loadFrom n o S ls = Squash.loadFrom n o S ess := by
  induction ls generalizing ess S with
  | nil => cases ess with
    | nil => rfl
    | cons es ess => exact h.elim
  | cons l ls ih => cases ess with
    | nil => exact h.elim
    | cons es ess =>
      obtain ⟨h1, h2⟩ := h
      simp only [loadFrom, Squash.loadFrom, parseLayer_holds h1]
      cases Squash.parseLayer o es with
      | error e => rfl
      | ok r =>
        simp only [fun S => ih h2 S]

theorem Res.bind_ok {α β : Type} {x : Res α} {f : α → Res β} {b : β} (h : x.bind f = some (.ok b)) : ∃ a, x = some (.ok a) ∧ f a = some (.ok b) := by
  cases x with
  | none => cases h
  | some x => cases x with
    | error e => cases h
    | ok a => exact ⟨a, rfl, h⟩

theorem loadFrom_ok {n : Nat} {o : Bool} {ls : List Layer} {S S' : FS} (h : loadFrom n o S ls = some (.ok S')) : ∃ ess, Spec.HoldAll ls ess := by
  induction ls generalizing S with
  | nil => exact ⟨[], trivial⟩
  | cons l ls ih =>
    simp only [loadFrom] at h
    cases hp : parseLayer o l with
    | error e => rw [hp] at h; cases h
    | ok r =>
      rw [hp] at h
      obtain ⟨S1, _, h2⟩ := Res.bind_ok h
      obtain ⟨S2, _, h4⟩ := Res.bind_ok h2
      obtain ⟨es, he⟩ := parseLayer_ok hp
      obtain ⟨ess, hs⟩ := ih h4
      exact ⟨es :: ess, he, hs⟩

theorem holdAll_unique {ls : List Layer} {ess ess' : List (List Entry)} (h : Spec.HoldAll ls ess) (h' : Spec.HoldAll ls ess') : ess = ess' := by
  induction ls generalizing ess ess' with
  | nil => cases ess <;> cases ess' <;> first | rfl | exact h.elim | exact h'.elim
  | cons l ls ih => cases ess with
    | nil => exact h.elim
    | cons es ess => cases ess' with
      | nil => exact h'.elim
      | cons es' ess' =>
        have he : es = es' := by
          have := h.1.2.2.symm.trans h'.1.2.2
          have inj : ∀ a b : Entry, (⟨a.header, .ok a.body⟩ : Item) = ⟨b.header, .ok b.body⟩ → a = b := by
            intro a b e
            cases a; cases b
            simp only [Item.mk.injEq, Except.ok.injEq] at e
            obtain ⟨rfl, rfl⟩ := e
            rfl
          exact (List.map_inj_right inj).mp this
        rw [he, ih h.2 h'.2]

/-- **C127** (partial), loading: with or without contents, `Load` gives a file system exactly when every layer can be opened, all contents
in it can be read and its archive ends as it should, and loading what the layers hold gives that file system.  It is not required that
what follows the archive can be read, nor that `Close` succeeds: `C127_violated`. -/
theorem C127_load_partial (n : Nat) (layers : List Layer) (omitContent : Bool) (S : FS) :
    load n layers omitContent = some (.ok S) ↔
      ∃ ess, Spec.HoldAll layers ess ∧ loadLayers n ess omitContent = some (.ok S) := by
  constructor
  · intro h
    obtain ⟨ess, hs⟩ := loadFrom_ok h
    exact ⟨ess, hs, by rw [← h]; exact (loadFrom_holds n omitContent hs emptyFS).symm⟩
  · rintro ⟨ess, hs, h⟩
    rw [← h]
    exact loadFrom_holds n omitContent hs emptyFS

/-- **C127** (partial), squashing: `Squash` gives a layer exactly when every layer can be read in this sense, squashing what they hold gives
these entries, and the writer takes all of them.  So an error of reader or writer never leaves a shorter layer. -/
theorem C127_squash_partial (n : Nat) (sortSlice : (Str → Str → Bool) → List Str → List Str) (order : Path → List Str → List Str)
    (accepts : Entry → Bool) (closes : Bool) (layers : List Layer) (out : List Entry) :
    squash n sortSlice order accepts closes layers = some (.ok out) ↔
      ∃ ess, Spec.HoldAll layers ess ∧ Squash.squash n sortSlice order ess = some (.ok out) ∧ (∀ e ∈ out, accepts e = true) ∧ closes = true := by
  unfold squash Squash.squash write
  constructor
  · intro h
    obtain ⟨S, h1, h2⟩ := Res.bind_ok h
    obtain ⟨ess, hs, hl⟩ := (C127_load_partial n layers false S).mp h1
    split at h2
    · rename_i ha
      rw [Bool.and_eq_true, List.all_eq_true] at ha
      cases h2
      exact ⟨ess, hs, by rw [hl]; rfl, ha.1, ha.2⟩
    · cases h2
  · rintro ⟨ess, hs, h, ha, hc⟩
    obtain ⟨S, h1, h2⟩ := Res.bind_ok h
    cases h2
    rw [(C127_load_partial n layers false S).mpr ⟨ess, hs, h1⟩]
    show some _ = _
    rw [if_pos (by rw [Bool.and_eq_true, List.all_eq_true]; exact ⟨ha, hc⟩)]

/-- C127 is violated: a layer of which the last part cannot be read (a compressed layer of which the checksum, at its end, is wrong) or that
reports an error when it is closed is loaded and squashed as if it were whole -/
theorem C127_violated : ∀ rest closes, rest = false ∨ closes = false →
    ∃ l : Layer, l.rest = rest ∧ l.closes = closes ∧ ¬ Spec.Readable l ∧
      load 5 [l] false = some (.ok [(["f".toList], ⟨some ⟨"f".toList, typeReg, [], 1, 0o644, []⟩, [7]⟩), ([], ⟨none, []⟩)]) := by
  intro rest closes h
  refine ⟨⟨true, [⟨⟨"f".toList, typeReg, [], 1, 0o644, []⟩, .ok [7]⟩], true, rest, closes⟩, rfl, rfl, ?_, ?_⟩
  · rintro ⟨_, h1, h2⟩
    dsimp only at h1 h2
    rcases h with rfl | rfl
    · cases h1
    · cases h2
  · have : ∀ rest closes, load 5 [⟨true, [⟨⟨"f".toList, typeReg, [], 1, 0o644, []⟩, .ok [7]⟩], true, rest, closes⟩] false =
        some (.ok [(["f".toList], ⟨some ⟨"f".toList, typeReg, [], 1, 0o644, []⟩, [7]⟩), ([], ⟨none, []⟩)]) := by
      intro rest closes
      cases rest <;> cases closes <;> decide +kernel
    exact this _ _

/-- a second layer that breaks off in the middle of a file: there is no result, although the first one is whole -/
example : load 5 [⟨true, [⟨⟨"f".toList, typeReg, [], 1, 0o644, []⟩, .ok [7]⟩], true, true, true⟩,
      ⟨true, [⟨⟨"g".toList, typeReg, [], 9, 0o644, []⟩, .error ()⟩], true, true, true⟩] true = some (.error ()) ∧
    (∃ ess, Spec.HoldAll [⟨true, [⟨⟨"f".toList, typeReg, [], 1, 0o644, []⟩, .ok [7]⟩], true, true, true⟩] ess ∧
      ∃ S, loadLayers 5 ess true = some (.ok S)) := by
  refine ⟨by decide +kernel, [[⟨⟨"f".toList, typeReg, [], 1, 0o644, []⟩, [7]⟩]], ⟨⟨rfl, rfl, rfl⟩, trivial⟩,
    [(["f".toList], ⟨some ⟨"f".toList, typeReg, [], 1, 0o644, []⟩, []⟩), ([], ⟨none, []⟩)], by decide +kernel⟩

end Squash.Stream
