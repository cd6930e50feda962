import Verif.Squash.InvGet
/-! The bound on the recursion only matters when it is too small: once a lookup, load or squash has a result, every larger
bound gives the same. -/
namespace Squash
open Go

/-- `y` is at least as defined as `x` -/
def Res.le {α : Type} (x y : Res α) : Prop := x = none ∨ x = y

theorem Res.le_refl {α : Type} (x : Res α) : x.le x := .inr rfl

theorem Res.le.some {α : Type} {x y : Res α} {r : Except Unit α} (h : x.le y) (hx : x = some r) : y = some r := by
  rcases h with h | h
  · rw [h] at hx; simp at hx
  · rw [← h]; exact hx

theorem Res.le.bind {α β : Type} {x y : Res α} {f g : α → Res β} (h : x.le y) (hf : ∀ a, (f a).le (g a)) :
    (x.bind f).le (y.bind g) := by
  rcases h with h | h
  · left; rw [h]; rfl
  · subst h
    match x with
    | none => exact .inl rfl
    | .some (.error e) => exact .inr rfl
    | .some (.ok a) => exact hf a

theorem walk_le {g g' : FS → Path → Str → Bool → Res (FS × Path)} (h : ∀ S d c fl, (g S d c fl).le (g' S d c fl)) :
    ∀ (cs : List Str) S d fl, (walk g S d cs fl).le (walk g' S d cs fl) := by
  intro cs
  induction cs with
  | nil => intro S d fl; exact .inr rfl
  | cons c cs ih =>
    intro S d fl
    cases cs with
    | nil => exact h S d c fl
    | cons c2 cs =>
      rw [walk, walk]
      · exact (h S d c false).bind fun x => ih _ _ _
      · simp
      · simp

theorem fsGetWith_le {g g' : FS → Path → Str → Bool → Res (FS × Path)} (h : ∀ S d c fl, (g S d c fl).le (g' S d c fl))
    (S : FS) (d : Path) (l : Str) (fl : Bool) : (fsGetWith g S d l fl).le (fsGetWith g' S d l fl) := by
  unfold fsGetWith
  simp only
  split
  · exact walk_le h _ _ _ _
  · exact walk_le h _ _ _ _

theorem resolve_le {fg fg' : FS → Path → Str → Res (FS × Path)} (h : ∀ S d l, (fg S d l).le (fg' S d l)) :
    ∀ (k k' : Nat), k ≤ k' → ∀ S st r, (resolve fg k S st r).le (resolve fg' k' S st r) := by
  intro k
  induction k with
  | zero => intro k' _ S st r; exact .inl rfl
  | succ k ih =>
    intro k' hk S st r
    obtain ⟨j, rfl⟩ : ∃ j, k' = j + 1 := ⟨k' - 1, by omega⟩
    rw [resolve, resolve]
    cases S.link r with
    | none => exact .inr rfl
    | some l =>
      simp only
      split
      · exact .inr rfl
      · exact (h _ _ _).bind fun x => ih j (by omega) _ _ _

theorem enter_le {fg fg' : FS → Path → Str → Res (FS × Path)} (h : ∀ S d l, (fg S d l).le (fg' S d l)) (S : FS) (f : Path) :
    (enter fg S f).le (enter fg' S f) := by
  unfold enter
  cases S.link f with
  | none => exact .inr rfl
  | some l => exact h _ _ _

theorem makeDir_le {g g' : FS → Path → Res (FS × Path)} (h : ∀ S f, (g S f).le (g' S f)) (create : Bool) (S : FS) (f : Path) :
    (makeDir g create S f).le (makeDir g' create S f) := by
  unfold makeDir
  split
  · split
    · exact .inr rfl
    · exact (h _ _).bind fun x => .inr rfl
  · exact .inr rfl

theorem get_le : ∀ (n m : Nat), n ≤ m → ∀ S f c create follow, (get n S f c create follow).le (get m S f c create follow) := by
  intro n
  induction n with
  | zero => intro m _ S f c create follow; exact .inl rfl
  | succ n ih =>
    intro m hm S f c create follow
    obtain ⟨j, rfl⟩ : ∃ j, m = j + 1 := ⟨m - 1, by omega⟩
    have hg := ih j (by omega)
    have hfs : ∀ fl S d l, (fsGetWith (fun S d c fl => get n S d c create fl) S d l fl).le
        (fsGetWith (fun S d c fl => get j S d c create fl) S d l fl) :=
      fun fl S d l => fsGetWith_le (fun S d c fl => hg S d c create fl) S d l fl
    rw [get, get]
    refine Res.le.bind ?_ (fun x => ?_)
    · split
      · exact .inr rfl
      · split
        · exact .inr rfl
        · refine Res.le.bind (enter_le (hfs true) _ _) (fun x => ?_)
          exact Res.le.bind (makeDir_le (fun S f => hg S f _ _ _) _ _ _) (fun S => .inr rfl)
    · split
      · exact resolve_le (hfs false) _ _ (by omega) _ _ _
      · exact .inr rfl

theorem fsGet_le {n m : Nat} (h : n ≤ m) (S : FS) (d : Path) (l : Str) (create follow : Bool) :
    (fsGet n S d l create follow).le (fsGet m S d l create follow) :=
  fsGetWith_le (fun S d c fl => get_le n m h S d c create fl) S d l follow

theorem set_le {n m : Nat} (h : n ≤ m) (S : FS) (f : Path) (hd : Header) (b : Bytes) : (set n S f hd b).le (set m S f hd b) := by
  unfold set
  split
  · exact .inr rfl
  · split
    · exact (get_le n m h _ _ _ _ _).bind fun x => .inr rfl
    · exact .inr rfl

theorem addEntries_le {n m : Nat} (h : n ≤ m) : ∀ (es : List Entry) (S : FS), (addEntries n S es).le (addEntries m S es) := by
  intro es
  induction es with
  | nil => intro S; exact .inr rfl
  | cons e es ih =>
    intro S
    rw [addEntries, addEntries]
    refine Res.le.bind ?_ (fun S => ih S)
    exact (fsGet_le h _ _ _ _ _).bind fun x => set_le h _ _ _ _

theorem loadFrom_le {n m : Nat} (h : n ≤ m) (oc : Bool) : ∀ (ls : List (List Entry)) (S : FS),
    (loadFrom n oc S ls).le (loadFrom m oc S ls) := by
  intro ls
  induction ls with
  | nil => intro S; exact .inr rfl
  | cons l ls ih =>
    intro S
    rw [loadFrom, loadFrom]
    cases parseLayer oc l with
    | error x => exact .inr rfl
    | ok y => exact (addEntries_le h _ _).bind fun S => (addEntries_le h _ _).bind fun S => ih S

/-- results do not depend on the bound -/
theorem load_mono {n m : Nat} (h : n ≤ m) {layers : List (List Entry)} {oc : Bool} {r : Except Unit FS}
    (hr : loadLayers n layers oc = some r) : loadLayers m layers oc = some r :=
  (loadFrom_le h oc layers emptyFS).some hr

theorem squash_mono {n m : Nat} (h : n ≤ m) {srt : (Str → Str → Bool) → List Str → List Str}
    {order : Path → List Str → List Str} {layers : List (List Entry)} {r : Except Unit (List Entry)}
    (hr : squash n srt order layers = some r) : squash m srt order layers = some r :=
  Res.le.some ((loadFrom_le h false layers emptyFS).bind fun _ => .inr rfl) hr

theorem open_mono {n m : Nat} (h : n ≤ m) {S : FS} {name : Str} {r : Except Unit (Path × Path)}
    (hr : openFile n S name = some r) : openFile m S name = some r := by
  refine Res.le.some ?_ hr
  unfold openFile
  split
  · exact .inr rfl
  · exact (fsGet_le h _ _ _ _ _).bind fun x => (get_le n m h _ _ _ _ _).bind fun y => .inr rfl

end Squash
