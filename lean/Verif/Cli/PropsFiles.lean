import Verif.Cli.Files
import Verif.Cli.PropsImage
import Verif.Squash.PropsWhole
/-! C103: input files, `layer squash` and `image build`. -/
namespace Cli
open Go

/-! ### specification -/

/-- what a file holds -/
def Spec.content (w : Files) (name : Str) : Option FileBytes := (w name).map (·.2)

/-- no pipe is given twice (a pipe can be read only once) -/
def Spec.PipesOnce (w : Files) (args : List Str) : Prop := args.Pairwise (fun a b => a = b → ∀ c, w a ≠ some (.pipe, c))

/-- a later state of the machine in which nobody has changed the regular files -/
def Spec.Later (w w' : Files) : Prop := ∀ f c, w f = some (.regular, c) → w' f = some (.regular, c)

/-! ### openers -/

/-- **C103**, opening files: whatever kind of file `name` is, it can be opened and read through the opener as often as one
likes, at any later time, and delivers the content it had at first.  Making the opener changes no other file. -/
theorem C103_opener {w : Files} {name : Str} {c : FileBytes} (h : Spec.content w name = some c) :
    (∀ f, f ≠ name → (pathOpener name w).1 f = w f) ∧ Spec.Later w (pathOpener name w).1 ∧
    ∀ w', Spec.Later w w' → (pathOpener name w).2 w' = (w', .ok c) := by
  unfold Spec.content at h
  unfold pathOpener
  match hw : w name with
  | none => rw [hw] at h; cases h
  | some (.regular, c') =>
    rw [hw] at h
    cases h
    refine ⟨fun f _ => rfl, fun f c h => h, ?_⟩
    intro w' hl
    show readFile w' name = _
    unfold readFile
    rw [hl _ _ hw]
  | some (.pipe, c') =>
    rw [hw] at h
    cases h
    have hr : readFile w name = (fun f => if f = name then some (.pipe, []) else w f, .ok c') := by
      unfold readFile; rw [hw]
    simp only [hr]
    refine ⟨fun f hf => if_neg hf, ?_, fun _ _ => trivial⟩
    intro f c hf
    show (if f = name then _ else w f) = _
    rw [if_neg, hf]
    rintro rfl
    rw [hw] at hf
    cases hf

/-- a file that is not there when the opener is made gives an error whenever it is used -/
theorem C103_opener_missing {w : Files} {name : Str} (h : Spec.content w name = none) (w' : Files) :
    (pathOpener name w).1 = w ∧ (pathOpener name w).2 w' = (w', .error ()) := by
  unfold pathOpener
  match hw : w name with
  | none => exact ⟨rfl, rfl⟩
  | some x => unfold Spec.content at h; rw [hw] at h; cases h

theorem Later.refl (w : Files) : Spec.Later w w := fun _ _ h => h

theorem Later.trans {a b c : Files} (h1 : Spec.Later a b) (h2 : Spec.Later b c) : Spec.Later a c := fun f x h => h2 f x (h1 f x h)

/-- making an opener makes no regular files -/
theorem opener_back {w w' : Files} {name : Str} (h : Spec.Later w w') : Spec.Later (pathOpener name w).1 w' := by
  intro f c hf
  apply h
  unfold pathOpener at hf
  match hw : w name with
  | none => rw [hw] at hf; exact hf
  | some (.regular, _) => rw [hw] at hf; exact hf
  | some (.pipe, x) =>
    rw [hw] at hf
    simp only at hf
    unfold readFile at hf
    rw [hw] at hf
    simp only at hf
    split at hf
    · cases hf
    · exact hf

theorem useOpener_const {op : Opener} {ok : FileBytes → Bool} {c : FileBytes} {w : Files} (h : op w = (w, .ok c)) (k : Nat) :
    useOpener k op ok w = (w, decide (k = 0) || ok c) := by
  induction k with
  | zero => rfl
  | succ k ih =>
    unfold useOpener
    rw [h]
    simp only
    cases hc : ok c with
    | true => rw [if_pos rfl, ih, hc]; simp
    | false => simp

theorem openLayer_present {α : Type} {F : Formats α} {k : Nat} (hk : 1 ≤ k) {w : Files} {name : Str} {c : FileBytes}
    (h : Spec.content w name = some c) :
    ∃ w1 op, openLayer F k name w = (w1, if F.isLayer c then .ok op else .error ()) ∧ (∀ f, f ≠ name → w1 f = w f) ∧ Spec.Later w w1 ∧
      ∀ w', Spec.Later w w' → op w' = (w', .ok c) ∧ Spec.Later w1 w' := by
  obtain ⟨h1, h2, h3⟩ := C103_opener h
  refine ⟨(pathOpener name w).1, (pathOpener name w).2, ?_, h1, h2, fun w' h' => ⟨h3 w' h', opener_back h'⟩⟩
  unfold openLayer
  simp only
  rw [useOpener_const (h3 _ h2)]
  have : decide (k = 0) = false := decide_eq_false (by omega)
  rw [this, Bool.false_or]
  cases F.isLayer c <;> rfl

theorem openImage_present {α : Type} {F : Formats α} {k : Nat} (hk : 1 ≤ k) {w : Files} {name : Str} {c : FileBytes}
    (h : Spec.content w name = some c) :
    ∃ w1 op, openImage F k name w = (w1, match F.image c with | .ok _ => .ok op | .error _ => .error ()) ∧
      (∀ f, f ≠ name → w1 f = w f) ∧ Spec.Later w w1 ∧ ∀ w', Spec.Later w w' → op w' = (w', .ok c) ∧ Spec.Later w1 w' := by
  obtain ⟨h1, h2, h3⟩ := C103_opener h
  refine ⟨(pathOpener name w).1, (pathOpener name w).2, ?_, h1, h2, fun w' h' => ⟨h3 w' h', opener_back h'⟩⟩
  unfold openImage
  simp only
  rw [useOpener_const (h3 _ h2)]
  have : decide (k = 0) = false := decide_eq_false (by omega)
  rw [this, Bool.false_or]
  cases F.image c <;> rfl

theorem open_missing {α : Type} {F : Formats α} {k : Nat} (hk : 1 ≤ k) {w : Files} {name : Str} (h : Spec.content w name = none) :
    openLayer F k name w = (w, .error ()) ∧ openImage F k name w = (w, .error ()) := by
  obtain ⟨k, rfl⟩ : ∃ j, k = j + 1 := ⟨k - 1, by omega⟩
  have h1 := C103_opener_missing h w
  constructor
  · unfold openLayer useOpener
    simp only [h1]
  · unfold openImage useOpener
    simp only [h1]

/-- opening all layers: what is read through the openers later on, or the error -/
theorem openLayers_spec {α : Type} {F : Formats α} {k : Nat} (hk : 1 ≤ k) {args : List Str} :
    ∀ {w : Files}, Spec.PipesOnce w args →
    (∃ w1 ops cs, openLayers F k args w = (w1, .ok ops) ∧ Spec.Later w w1 ∧ args.map (Spec.content w) = cs.map some ∧
      (∀ c ∈ cs, F.isLayer c = true) ∧ ∀ w', Spec.Later w w' → readLayers ops w' = (w', .ok cs)) ∨
    ((∃ w1, openLayers F k args w = (w1, .error ())) ∧
      ∃ a ∈ args, ∀ c, Spec.content w a = some c → F.isLayer c = false) := by
  induction args with
  | nil => intro w _; exact Or.inl ⟨w, [], [], rfl, Later.refl w, rfl, by simp, fun _ _ => rfl⟩
  | cons a as ih =>
    intro w hp
    obtain ⟨hp1, hp2⟩ := List.pairwise_cons.mp hp
    cases hc : Spec.content w a with
    | none =>
      right
      refine ⟨⟨w, ?_⟩, a, by simp, fun c h => by rw [hc] at h; cases h⟩
      rw [openLayers, (open_missing hk hc).1]
    | some c =>
      obtain ⟨w1, op, h1, h2, h3, h4⟩ := openLayer_present (F := F) hk hc
      cases hl : F.isLayer c with
      | false =>
        right
        rw [hl] at h1
        refine ⟨⟨w1, ?_⟩, a, by simp, fun c' h => by rw [hc] at h; cases h; exact hl⟩
        rw [openLayers, h1]
        rfl
      | true =>
        rw [hl] at h1
        simp only [if_true] at h1
        -- the files that are still to come have not changed
        have hsame : ∀ b ∈ as, w1 b = w b := by
          intro b hb
          by_cases hba : b = a
          · subst hba
            have := hp1 b hb rfl
            match hw : w b with
            | none => unfold Spec.content at hc; rw [hw] at hc; cases hc
            | some (.regular, x) => exact h3 _ _ hw
            | some (.pipe, x) => exact absurd hw (this x)
          · exact h2 b hba
        have hp' : Spec.PipesOnce w1 as := by
          refine List.Pairwise.imp_of_mem ?_ hp2
          intro x y hx _ hxy he c
          rw [hsame x hx]
          exact hxy he c
        have hcont : ∀ b ∈ as, Spec.content w1 b = Spec.content w b := fun b hb => by
          unfold Spec.content; rw [hsame b hb]
        rcases ih hp' with ⟨w2, ops, cs, a1, a2, a3, a4, a5⟩ | ⟨⟨w2, b1⟩, b, hb, b2⟩
        · left
          refine ⟨w2, op :: ops, c :: cs, ?_, Later.trans h3 a2, ?_, ?_, ?_⟩
          · rw [openLayers, h1]
            simp only [a1]
          · rw [List.map_cons, List.map_cons, hc, ← a3]
            congr 1
            exact List.map_congr_left (fun b hb => (hcont b hb).symm)
          · intro x hx
            rcases List.mem_cons.mp hx with rfl | hx
            · exact hl
            · exact a4 x hx
          · intro w' hw'
            rw [readLayers, (h4 _ hw').1]
            simp only
            rw [a5 w' (h4 _ hw').2]
        · right
          refine ⟨⟨w2, ?_⟩, b, by simp [hb], ?_⟩
          · rw [openLayers, h1]
            simp only [b1]
          · intro c' hc'
            exact b2 c' (by rw [hcont b hb]; exact hc')

/-! ### layer squash -/

theorem untarAll_ok {α : Type} {F : Formats α} {cs : List FileBytes} {ls : List (List Squash.Entry)} (h : cs.map F.entries = ls.map .ok) :
    untarAll F cs = .ok ls := by
  induction cs generalizing ls with
  | nil => cases ls with | nil => rfl | cons _ _ => cases h
  | cons c cs ih =>
    cases ls with
    | nil => cases h
    | cons l ls =>
      simp only [List.map_cons, List.cons.injEq] at h
      rw [untarAll, h.1]
      simp only [ih h.2]

theorem untarAll_error {α : Type} {F : Formats α} {cs : List FileBytes} {c : FileBytes} (hc : c ∈ cs) (h : ∀ l, F.entries c ≠ .ok l) :
    untarAll F cs = .error () := by
  induction cs with
  | nil => cases hc
  | cons d cs ih =>
    rw [untarAll]
    cases hd : F.entries d with
    | error x => rfl
    | ok l =>
      simp only
      rcases List.mem_cons.mp hc with rfl | hc
      · exact absurd hd (h l)
      · rw [ih hc]

/-- **C103**, `layer squash`: from two or more files — regular files or pipes, each pipe once — that hold layers with the
entries `ls`, in the order of the arguments, the command writes exactly what `Squash` makes of `ls`. -/
theorem C103_squash {α : Type} {F : Formats α} {k n : Nat} (hk : 1 ≤ k) {srt : (Str → Str → Bool) → List Str → List Str}
    {order : Squash.Path → List Str → List Str} {args : List Str} {w : Files} {cs : List FileBytes} {ls : List (List Squash.Entry)}
    (h2 : 2 ≤ args.length) (hp : Spec.PipesOnce w args) (hc : args.map (Spec.content w) = cs.map some)
    (hl : ∀ c ∈ cs, F.isLayer c = true) (he : cs.map F.entries = ls.map .ok) :
    squashCommand F k n srt order args w = Squash.squash n srt order ls := by
  unfold squashCommand
  rw [if_neg (by omega)]
  rcases openLayers_spec hk hp with ⟨w1, ops, cs', a1, a2, a3, a4, a5⟩ | ⟨_, a, ha, hb⟩
  · have : cs' = cs := by
      rw [a3] at hc
      exact (List.map_inj_right (fun _ _ => Option.some.inj)).mp hc
    subst this
    rw [a1]
    simp only [a5 w1 a2, untarAll_ok he]
  · exfalso
    obtain ⟨i, hi, rfl⟩ := List.mem_iff_getElem.mp ha
    have hlen : args.length = cs.length := by simpa using congrArg List.length hc
    have : Spec.content w args[i] = some cs[i] := by
      have := congrArg (fun l : List (Option FileBytes) => l[i]?) hc
      simpa [hi, show i < cs.length by omega] using this
    have h3 := hb _ this
    rw [hl _ (List.getElem_mem _)] at h3
    cases h3

/-- **C103**, errors of `layer squash`: with fewer than two files, or a file that is missing or no readable layer, there is an
error and nothing is written -/
theorem C103_squash_error {α : Type} {F : Formats α} {k n : Nat} (hk : 1 ≤ k) {srt : (Str → Str → Bool) → List Str → List Str}
    {order : Squash.Path → List Str → List Str} {args : List Str} {w : Files} (hp : Spec.PipesOnce w args)
    (h : args.length < 2 ∨ ∃ a ∈ args, ∀ c, Spec.content w a = some c → F.isLayer c = false ∨ ∀ l, F.entries c ≠ .ok l) :
    squashCommand F k n srt order args w = some (.error ()) := by
  unfold squashCommand
  split
  · rfl
  · rename_i h2
    rcases h with h | ⟨a, ha, hb⟩
    · exact absurd h h2
    · rcases openLayers_spec hk hp with ⟨w1, ops, cs, a1, a2, a3, a4, a5⟩ | ⟨⟨w1, b1⟩, _⟩
      · rw [a1]
        simp only [a5 w1 a2]
        obtain ⟨i, hi, rfl⟩ := List.mem_iff_getElem.mp ha
        have hlen : args.length = cs.length := by simpa using congrArg List.length a3
        have h3 : Spec.content w args[i] = some cs[i] := by
          have := congrArg (fun l : List (Option FileBytes) => l[i]?) a3
          simpa [hi, show i < cs.length by omega] using this
        rcases hb _ h3 with h4 | h4
        · rw [a4 _ (List.getElem_mem _)] at h4; cases h4
        · rw [untarAll_error (List.getElem_mem _) h4]
      · rw [b1]

/-! ### image build -/

/-- the base image that the flag names: the empty one without the flag, otherwise the one in the file, if it is complete -/
def Spec.IsBase {α : Type} (F : Formats α) (emptyImage : Image α) (w : Files) (base : Str) (i : Image α) : Prop :=
  (base = [] ∧ i = emptyImage) ∨ (base ≠ [] ∧ ∃ c, Spec.content w base = some c ∧ F.image c = .ok i ∧ F.complete c = true)

/-- the file named as the base holds an image, but not all layers of it -/
def Spec.Incomplete {α : Type} (F : Formats α) (w : Files) (base : Str) : Prop :=
  base ≠ [] ∧ ∃ c i, Spec.content w base = some c ∧ F.image c = .ok i ∧ F.complete c = false

/-- the input files of `image build` -/
def Spec.inputs (base : Str) (args : List Str) : List Str := if base = [] then args else base :: args

/-- there are layer files, they hold `cs`, these are layers, and the tag (if given) is valid -/
def Spec.Inputs {α : Type} (F : Formats α) (w : Files) (validTag : Str → Bool) (tag : Str) (args : List Str) (cs : List FileBytes) : Prop :=
  args ≠ [] ∧ (tag ≠ [] → validTag tag = true) ∧ args.map (Spec.content w) = cs.map some ∧ ∀ c ∈ cs, F.isLayer c = true

theorem isBase_unique {α : Type} {F : Formats α} {E : Image α} {w : Files} {base : Str} {i j : Image α}
    (h : Spec.IsBase F E w base i) (h' : Spec.IsBase F E w base j) : i = j := by
  rcases h with ⟨h1, h2⟩ | ⟨h1, c, h2, h3, _⟩ <;> rcases h' with ⟨k1, k2⟩ | ⟨k1, d, k2, k3, _⟩
  · rw [h2, k2]
  · exact absurd h1 k1
  · exact absurd k1 h1
  · rw [h2] at k2; cases k2; rw [h3] at k3; cases k3; rfl

theorem isBase_complete {α : Type} {F : Formats α} {E : Image α} {w : Files} {base : Str} {i : Image α}
    (h : Spec.IsBase F E w base i) (h' : Spec.Incomplete F w base) : False := by
  obtain ⟨k1, d, j, k2, k3, k4⟩ := h'
  rcases h with ⟨h1, _⟩ | ⟨_, c, h2, _, h4⟩
  · exact k1 h1
  · rw [h2] at k2; cases k2; rw [h4] at k4; cases k4

theorem inputs_unique {α : Type} {F : Formats α} {w : Files} {v : Str → Bool} {tag : Str} {args : List Str} {cs ds : List FileBytes}
    (h : Spec.Inputs F w v tag args cs) (h' : Spec.Inputs F w v tag args ds) : cs = ds := by
  have := h.2.2.1.symm.trans h'.2.2.1
  exact (List.map_inj_right (fun _ _ => Option.some.inj)).mp this

/-- opening the base -/
theorem base_spec {α : Type} {F : Formats α} {k : Nat} (hk : 1 ≤ k) {E : Image α} {base : Str} {args : List Str} {w : Files}
    (hp : Spec.PipesOnce w (Spec.inputs base args)) :
    (∃ w1 op r, openBase F k base w = (w1, Except.ok op) ∧
      Spec.PipesOnce w1 args ∧ args.map (Spec.content w1) = args.map (Spec.content w) ∧ Spec.Later w w1 ∧
      (∀ w', Spec.Later w w' → readBase F E op w' = (w', r)) ∧ ((∃ i, r = some i ∧ Spec.IsBase F E w base i) ∨ (r = none ∧ Spec.Incomplete F w base))) ∨
    ((∃ w1, openBase F k base w = (w1, Except.error ())) ∧
      (∀ i, ¬ Spec.IsBase F E w base i) ∧ ¬ Spec.Incomplete F w base) := by
  unfold Spec.inputs at hp
  unfold openBase
  by_cases hb : base = []
  · subst hb
    exact Or.inl ⟨w, none, some E, rfl, hp, rfl, Later.refl w, fun _ _ => rfl, Or.inl ⟨E, rfl, Or.inl ⟨rfl, rfl⟩⟩⟩
  · rw [if_neg hb] at hp
    rw [if_neg hb]
    cases hc : Spec.content w base with
    | none =>
      right
      rw [(open_missing hk hc).2]
      refine ⟨⟨w, rfl⟩, ?_, ?_⟩
      · rintro i (⟨h, _⟩ | ⟨_, c, h, _⟩)
        · exact hb h
        · rw [hc] at h; cases h
      · rintro ⟨_, c, _, h, _⟩
        rw [hc] at h; cases h
    | some c =>
      obtain ⟨w1, op, h1, h2, h3, h4⟩ := openImage_present (F := F) hk hc
      rw [h1]
      cases hi : F.image c with
      | error x =>
        right
        refine ⟨⟨w1, rfl⟩, ?_, ?_⟩
        · rintro i (⟨h, _⟩ | ⟨_, c', h, h', _⟩)
          · exact hb h
          · rw [hc] at h; cases h; rw [hi] at h'; cases h'
        · rintro ⟨_, c', _, h, h', _⟩
          rw [hc] at h; cases h; rw [hi] at h'; cases h'
      | ok i =>
        left
        obtain ⟨hp1, hp2⟩ := List.pairwise_cons.mp hp
        have hsame : ∀ b ∈ args, w1 b = w b := by
          intro b hbm
          by_cases he : b = base
          · subst he
            match hw : w b with
            | some (.regular, x) => exact h3 _ _ hw
            | some (.pipe, x) => exact absurd hw (hp1 b hbm rfl x)
            | none => unfold Spec.content at hc; rw [hw] at hc; cases hc
          · exact h2 b he
        refine ⟨w1, some op, if F.complete c then some i else none, rfl, ?_, ?_, h3, ?_, ?_⟩
        · unfold Spec.PipesOnce
          refine List.Pairwise.imp_of_mem ?_ hp2
          intro a b ha _ hab e x
          rw [hsame a ha]
          exact hab e x
        · apply List.map_congr_left
          intro b hbm
          unfold Spec.content
          rw [hsame b hbm]
        · intro w' hw'
          unfold readBase
          simp only [(h4 w' hw').1, hi]
        · cases hcm : F.complete c with
          | true => exact Or.inl ⟨i, rfl, Or.inr ⟨hb, c, hc, hi, hcm⟩⟩
          | false => exact Or.inr ⟨rfl, hb, c, i, hc, hi, hcm⟩

/-- all cases of `image build` -/
theorem build_cases {α : Type} {F : Formats α} {k : Nat} (hk : 1 ≤ k) (E : Image α) (validTag : Str → Bool) (flags : BuildFlags)
    {args : List Str} {w : Files} (hp : Spec.PipesOnce w (Spec.inputs flags.base args)) :
    (∃ b cs, Spec.Inputs F w validTag flags.tag args cs ∧ Spec.IsBase F E w flags.base b ∧
      buildCommand F k E validTag flags args w =
        some (.ok (⟨b.layers ++ cs, buildConfig flags.config b.config⟩, if flags.tag = [] then none else some flags.tag))) ∨
    ((∃ cs, Spec.Inputs F w validTag flags.tag args cs) ∧ Spec.Incomplete F w flags.base ∧
      buildCommand F k E validTag flags args w = if flags.config.isZero then some (.error ()) else none) ∨
    (((∀ cs, ¬ Spec.Inputs F w validTag flags.tag args cs) ∨ ((∀ b, ¬ Spec.IsBase F E w flags.base b) ∧ ¬ Spec.Incomplete F w flags.base)) ∧
      buildCommand F k E validTag flags args w = some (.error ())) := by
  unfold buildCommand
  by_cases hl : args.length < 1
  · refine Or.inr (Or.inr ⟨Or.inl ?_, if_pos hl⟩)
    rintro cs ⟨h, _⟩
    exact h (List.eq_nil_of_length_eq_zero (by omega))
  rw [if_neg hl]
  have hne : args ≠ [] := by rintro rfl; exact hl (by simp)
  rcases base_spec (F := F) hk (E := E) hp with ⟨w1, op, r, b1, b2, b3, b4, b5, b6⟩ | ⟨⟨w1, b1⟩, b2⟩
  · rw [b1]
    simp only
    by_cases ht : flags.tag ≠ [] ∧ validTag flags.tag = false
    · refine Or.inr (Or.inr ⟨Or.inl ?_, if_pos ht⟩)
      rintro cs ⟨_, h, _⟩
      rw [h ht.1] at ht
      cases ht.2
    · rw [if_neg ht]
      have ht' : flags.tag ≠ [] → validTag flags.tag = true := by
        intro h
        cases hv : validTag flags.tag with
        | true => rfl
        | false => exact absurd ⟨h, hv⟩ ht
      rcases openLayers_spec (F := F) hk b2 with ⟨w2, ops, cs, c1, c2, c3, c4, c5⟩ | ⟨⟨w2, c1⟩, a, ha, hbad⟩
      · rw [c1]
        simp only [c5 w2 c2, b5 w2 (Later.trans b4 c2)]
        have hin : Spec.Inputs F w validTag flags.tag args cs := ⟨hne, ht', by rw [← b3, c3], c4⟩
        rcases b6 with ⟨i, rfl, hi⟩ | ⟨rfl, hi⟩
        · exact Or.inl ⟨i, cs, hin, hi, rfl⟩
        · exact Or.inr (Or.inl ⟨⟨cs, hin⟩, hi, rfl⟩)
      · rw [c1]
        refine Or.inr (Or.inr ⟨Or.inl ?_, rfl⟩)
        rintro cs ⟨_, _, h, h'⟩
        rw [← b3] at h
        obtain ⟨i, hi, rfl⟩ := List.mem_iff_getElem.mp ha
        have hlen : args.length = cs.length := by simpa using congrArg List.length h
        have h3 : Spec.content w1 args[i] = some cs[i] := by
          have := congrArg (fun l : List (Option FileBytes) => l[i]?) h
          simpa [hi, show i < cs.length by omega] using this
        have h4 := hbad _ h3
        rw [h' _ (List.getElem_mem _)] at h4
        cases h4
  · rw [b1]
    exact Or.inr (Or.inr ⟨Or.inr b2, rfl⟩)

/-- **C103**, `image build`: an image is written exactly if there is at least one layer file, all of them hold layers, the base
(if given) is a complete image, and the tag (if given) is valid.  It then has the layers of the base followed by those of the
files, in the order of the arguments and byte for byte, the config that the flags ask for (C79), and the tag. -/
theorem C103_build {α : Type} {F : Formats α} {k : Nat} (hk : 1 ≤ k) {E : Image α} {validTag : Str → Bool} {flags : BuildFlags}
    {args : List Str} {w : Files} (hp : Spec.PipesOnce w (Spec.inputs flags.base args)) {img : Image α} {tag : Option Str} :
    buildCommand F k E validTag flags args w = some (.ok (img, tag)) ↔
      ∃ b cs, Spec.Inputs F w validTag flags.tag args cs ∧ Spec.IsBase F E w flags.base b ∧
        img.layers = b.layers ++ cs ∧ img.config = buildConfig flags.config b.config ∧
        tag = (if flags.tag = [] then none else some flags.tag) := by
  constructor
  · intro h
    rcases build_cases (F := F) hk E validTag flags hp with ⟨b, cs, h1, h2, h3⟩ | ⟨_, _, h3⟩ | ⟨_, h3⟩
    · rw [h3] at h
      cases h
      exact ⟨b, cs, h1, h2, rfl, rfl, rfl⟩
    · rw [h3] at h
      split at h <;> cases h
    · rw [h3] at h
      cases h
  · rintro ⟨b, cs, h1, h2, h3, h4, rfl⟩
    rcases build_cases (F := F) hk E validTag flags hp with ⟨b', cs', k1, k2, k3⟩ | ⟨_, k2, _⟩ | ⟨k | k, _⟩
    · rw [k3, inputs_unique k1 h1, isBase_unique k2 h2, ← h3, ← h4]
    · exact absurd k2 (isBase_complete h2)
    · exact absurd h1 (k cs)
    · exact absurd h2 (k.1 b)

/-- **C103**, when `image build` panics: exactly if the base is an image of which layers are missing, everything else is as
it should be, and a flag changes the config. -/
theorem C103_panics_iff {α : Type} {F : Formats α} {k : Nat} (hk : 1 ≤ k) {E : Image α} {validTag : Str → Bool} {flags : BuildFlags}
    {args : List Str} {w : Files} (hp : Spec.PipesOnce w (Spec.inputs flags.base args)) :
    buildCommand F k E validTag flags args w = none ↔
      (∃ cs, Spec.Inputs F w validTag flags.tag args cs) ∧ Spec.Incomplete F w flags.base ∧ flags.config.isZero = false := by
  constructor
  · intro h
    rcases build_cases (F := F) hk E validTag flags hp with ⟨b, cs, h1, h2, h3⟩ | ⟨h1, h2, h3⟩ | ⟨_, h3⟩
    · rw [h3] at h; cases h
    · refine ⟨h1, h2, ?_⟩
      rw [h3] at h
      cases hz : flags.config.isZero with
      | false => rfl
      | true => rw [hz] at h; cases h
    · rw [h3] at h; cases h
  · rintro ⟨⟨cs, h1⟩, h2, h3⟩
    rcases build_cases (F := F) hk E validTag flags hp with ⟨b', cs', k1, k2, k3⟩ | ⟨_, _, k3⟩ | ⟨k | k, _⟩
    · exact absurd h2 (isBase_complete k2)
    · rw [k3, h3]; rfl
    · exact absurd h1 (k cs)
    · exact absurd h2 k.2

/-- **C103** in full: `image build` writes an image or returns an error. -/
def C103 : Prop :=
  ∀ {α : Type} (F : Formats α) (k : Nat) (E : Image α) (validTag : Str → Bool) (flags : BuildFlags) (args : List Str) (w : Files),
    1 ≤ k → Spec.PipesOnce w (Spec.inputs flags.base args) → buildCommand F k E validTag flags args w ≠ none

/-- **C103**, what is true: it does unless the base is given, is an image with missing layers, and a flag changes the config -/
theorem C103_no_panic_partial {α : Type} {F : Formats α} {k : Nat} (hk : 1 ≤ k) {E : Image α} {validTag : Str → Bool} {flags : BuildFlags}
    {args : List Str} {w : Files} (hp : Spec.PipesOnce w (Spec.inputs flags.base args))
    (h : flags.base = [] ∨ flags.config.isZero = true ∨ ∀ c, Spec.content w flags.base = some c → F.complete c = true) :
    buildCommand F k E validTag flags args w ≠ none := by
  rw [Ne, C103_panics_iff hk hp]
  rintro ⟨_, ⟨h1, c, i, h2, _, h4⟩, h3⟩
  rcases h with h | h | h
  · exact h1 h
  · rw [h] at h3; cases h3
  · rw [h c h2] at h4; cases h4

/-! ### both commands -/

/-- what the layers of an image are for a tar reader -/
def Spec.Untars {α : Type} (F : Formats α) (i : Image α) (ls : List (List Squash.Entry)) : Prop :=
  i.layers.map F.entries = ls.map .ok

/-- **C103**, both commands: an image built from the squashed layer has the same files as the one built from the layers, on the
same base and with the same flags, and the same config; for the layers of C62.  Missing: other layers, for which C62 is
violated. -/
theorem C103_same_files_partial {α : Type} {F : Formats α} {k n : Nat} (hk : 1 ≤ k) (hn : 3 ≤ n) {E : Image α} {validTag : Str → Bool}
    {flags : BuildFlags} {args : List Str} {w w' : Files} {b : Image α} {cs : List FileBytes} {bs ls : List (List Squash.Entry)}
    {srt : (Str → Str → Bool) → List Str → List Str} (hs : SortSlice srt) {order : Squash.Path → List Str → List Str}
    (ho : Squash.PermOrder order)
    -- the files of the first machine
    (h2 : 2 ≤ args.length) (hp : Spec.PipesOnce w (Spec.inputs flags.base args)) (hin : Spec.Inputs F w validTag flags.tag args cs)
    (hb : Spec.IsBase F E w flags.base b) (hbs : Spec.Untars F b bs) (hls : cs.map F.entries = ls.map .ok)
    -- the second machine has the same base, and the squashed layer in a file
    {file : Str} {c : FileBytes} (hp' : Spec.PipesOnce w' (Spec.inputs flags.base [file])) (hb' : Spec.IsBase F E w' flags.base b)
    (hc : Spec.content w' file = some c) (hl : F.isLayer c = true)
    (hw : ∀ out, squashCommand F k n srt order args w = some (.ok out) → F.entries c = .ok out)
    -- the layers
    (ht : Squash.Spec.Tame ls) (hi : ∀ l ∈ bs, ∀ e ∈ l, ¬ Squash.Spec.Outside e.header.name)
    (hr : ∀ l ∈ bs, ∀ e ∈ l, Squash.Spec.pathOf e = [] → e.header.typeflag = '5') (hnt : Squash.Spec.NoThrough (bs ++ ls))
    (hst : Squash.Spec.LinksStay bs ls) :
    ∃ img img' tag ms ms' S T, buildCommand F k E validTag flags args w = some (.ok (img, tag)) ∧
      buildCommand F k E validTag flags [file] w' = some (.ok (img', tag)) ∧ img.config = img'.config ∧
      Spec.Untars F img ms ∧ Spec.Untars F img' ms' ∧
      Squash.loadLayers n ms false = some (.ok S) ∧ Squash.loadLayers n ms' false = some (.ok T) ∧
      ∀ q, Squash.Spec.Visible q → S.get? q = T.get? q := by
  obtain ⟨out, S, T, s1, s2, s3, s4⟩ := Squash.C62_load_partial bs ls ht hi hr hnt hst n hn srt hs order ho
  have hpa : Spec.PipesOnce w args := by
    unfold Spec.inputs at hp
    split at hp
    · exact hp
    · exact (List.pairwise_cons.mp hp).2
  have hsq := C103_squash (F := F) hk (n := n) (srt := srt) (order := order) h2 hpa hin.2.2.1 hin.2.2.2 hls
  have hout := hw out (hsq.trans s1)
  refine ⟨⟨b.layers ++ cs, buildConfig flags.config b.config⟩, ⟨b.layers ++ [c], buildConfig flags.config b.config⟩,
    if flags.tag = [] then none else some flags.tag, bs ++ ls, bs ++ [out], S, T,
    (C103_build hk hp).mpr ⟨b, cs, hin, hb, rfl, rfl, rfl⟩,
    (C103_build hk hp').mpr ⟨b, [c], ⟨by simp, hin.2.1, by simp [hc], by simpa using hl⟩, hb', rfl, rfl, rfl⟩, rfl, ?_, ?_, s2, s3, s4⟩
  · show (b.layers ++ cs).map F.entries = _
    rw [List.map_append, List.map_append, hls, hbs]
  · show (b.layers ++ [c]).map F.entries = _
    rw [List.map_append, List.map_append, hbs]
    simp [hout]

/-! ### a machine, for the examples -/

namespace FilesEx
open Squash (exDir exFile exLink)

/-- a base image on a pipe, a base archive that was cut, and the layers of an example for C62 in files; another machine with the squashed layer -/
def files (squashed : Bool) : Files := fun f =>
  if f = "/dev/fd/63".toList then some (.pipe, [100, 101])
  else if f = "cut.tar".toList then some (.regular, [100])
  else if squashed then (if f = "s.layer".toList then some (.regular, [9]) else none)
  else if f = "0".toList then some (.regular, [0])
  else if f = "1".toList then some (.regular, [1])
  else if f = "2".toList then some (.regular, [2])
  else none

def config : ImgConfig Unit := ⟨some ["PATH=/bin".toList], none, some ["sh".toList], [], ()⟩

/-- byte `i` stands for layer `i`, 9 for the squashed layer, 101 for the layer of the base -/
def formats : Formats Unit where
  isLayer c := decide (c.length = 1) && decide (c ≠ [100])
  entries c :=
    match c with
    | [9] => match Squash.squash 9 insertionSort (fun _ l => l) Squash.exTame with | some (.ok o) => .ok o | _ => .error ()
    | [101] => .ok (Squash.exBase.headD [])
    | [i] => match Squash.exTame[i.toNat]? with | some l => .ok l | none => .error ()
    | _ => .error ()
  image c := match c with | 100 :: cs => .ok ⟨[cs], config⟩ | _ => .error ()
  complete c := match c with | [100, _] => true | _ => false

def flags (base : String) (env : List Str) : BuildFlags := ⟨base.toList, "t".toList, ⟨false, some env, none, none, []⟩⟩

def E : Image Unit := ⟨[], ⟨none, none, none, [], ()⟩⟩

end FilesEx

open FilesEx in
/-- the base from the pipe, and each layer, are read more than once -/
example : (buildCommand formats 3 E (fun _ => true) (flags "/dev/fd/63" ["A=1".toList]) ["1".toList, "0".toList] (files false)) =
    some (.ok (⟨[[101], [1], [0]], ⟨some ["PATH=/bin".toList, "A=1".toList], none, some ["sh".toList], [], ()⟩⟩, some "t".toList)) := by rfl

open FilesEx in
theorem FilesEx.once (b : Bool) (base : String) (args : List Str) (h : (base.toList :: args).Nodup) :
    Spec.PipesOnce (files b) (Spec.inputs base.toList args) := by
  have : Spec.PipesOnce (files b) (base.toList :: args) := h.imp (fun hab e => absurd e hab)
  unfold Spec.inputs
  split
  · exact (List.pairwise_cons.mp this).2
  · exact this

open FilesEx in
/-- the hypotheses of `C103_same_files_partial` are met -/
example :=
  C103_same_files_partial (F := formats) (k := 2) (n := 9) (by omega) (by omega) (E := E) (validTag := fun _ => true) (flags := flags "/dev/fd/63" ["A=1".toList])
    (args := ["0".toList, "1".toList]) (w := files false) (w' := files true) (b := ⟨[[101]], config⟩) (cs := [[0], [1]]) (bs := Squash.exBase)
    (ls := Squash.exTame) (srt := insertionSort) sortSlice_exists (order := fun _ l => l) (fun _ _ => List.Perm.refl _)
    (by decide) (FilesEx.once _ _ _ (by decide)) ⟨by decide, fun _ => rfl, by rfl, by decide⟩
    (Or.inr ⟨by decide, [100, 101], by rfl, by rfl, by rfl⟩) (by rfl) (by rfl)
    (file := "s.layer".toList) (c := [9]) (FilesEx.once _ _ _ (by decide))
    (Or.inr ⟨by decide, [100, 101], by rfl, by rfl, by rfl⟩) (by rfl) (by decide)
    (by
      intro out h
      have := C103_squash (F := formats) (k := 2) (n := 9) (by omega) (srt := insertionSort) (order := fun _ l => l) (args := ["0".toList, "1".toList])
        (w := files false) (cs := [[0], [1]]) (ls := Squash.exTame) (by decide)
        (List.pairwise_cons.mp (FilesEx.once false "/dev/fd/63" ["0".toList, "1".toList] (by decide))).2 (by rfl) (by decide) (by rfl)
      rw [h] at this
      show (match Squash.squash 9 insertionSort (fun _ l => l) Squash.exTame with | some (.ok o) => Except.ok o | _ => .error ()) = _
      rw [← this])
    Squash.exTame_tame
    (by
      intro l hl e he
      rw [← Squash.outside_iff]
      have : ∀ l ∈ Squash.exBase, ∀ e ∈ l, Squash.outside (clean e.header.name) = false := by decide +kernel
      rw [this l hl e he]; simp)
    (by decide +kernel) (by decide +kernel) Squash.exTame_linksStay

open FilesEx in
/-- The code violates C103: with an archive that was cut as the base, and a flag for the config, `image build` panics. -/
theorem C103_violated : ¬ C103 := by
  intro h
  refine h formats 1 E (fun _ => true) (flags "cut.tar" ["A=1".toList]) ["0".toList] (files false) (by omega) ?_ (by rfl)
  unfold Spec.inputs flags
  simp only
  rw [if_neg (by decide)]
  refine List.Pairwise.cons ?_ (List.pairwise_singleton _ _)
  intro b hb e
  rw [List.mem_singleton] at hb
  subst hb
  exact absurd e (by decide)

end Cli
