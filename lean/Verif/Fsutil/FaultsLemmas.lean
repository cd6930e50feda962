import Verif.Fsutil.PropsHandles
/-! A condition on programs that implies what C141 says of their runs. -/
namespace Handles
open Spec

/-- the failure is that of closing a handle opened at one of these places -/
def Ign (ign : Site → Bool) (σ : Handle → Site) (f : Fault) : Prop := ∃ h, f = .closing h ∧ ign (σ h) = true

/-- or that of reading one opened at one of those -/
def Lax (ign use : Site → Bool) (σ : Handle → Site) (f : Fault) : Prop := Ign ign σ f ∨ ∃ h, f = .using h ∧ use (σ h) = true

/-- the condition: `c` is whether all failures are of the first kind, `d` whether they are of the first or the second -/
def Hon (ign use : Site → Bool) (σ : Handle → Site) {α : Type} : Prog α → Bool → Bool → (α → Bool → Bool → Prop) → Prop
  | .ret a, c, d, post => post a c d
  | .either k, c, d, post => ∀ b, Hon ign use σ (k b) c d post
  | .call k, c, d, post => Hon ign use σ (k true) c d post ∧ Hon ign use σ (k false) false false post
  | .open s _ k, c, d, post => Hon ign use σ (k none) false false post ∧ ∀ h, σ h = s → Hon ign use σ (k (some h)) c d post
  | .use h k, c, d, post => Hon ign use σ (k true) c d post ∧ Hon ign use σ (k false) false (d && use (σ h)) post
  | .close h k, c, d, post => Hon ign use σ (k true) c d post ∧ Hon ign use σ (k false) (c && ign (σ h)) (d && ign (σ h)) post

variable {ign use : Site → Bool} {σ : Handle → Site}

theorem hon_sound {α : Type} {P : Prog α} {n m : Nat} {tr : List Event} {fs : List Fault} {a : α} (hr : Runs P n tr fs a m) :
    ∀ (c d : Bool) (post : α → Bool → Bool → Prop), (∀ h s p, Event.opened h s p ∈ tr → σ h = s) → Hon ign use σ P c d post →
      ∃ c' d', post a c' d' ∧ (c' = true ↔ c = true ∧ ∀ f ∈ fs, Ign ign σ f) ∧ (d' = true ↔ d = true ∧ ∀ f ∈ fs, Lax ign use σ f) := by
  induction hr with
  | ret => intro c d post _ h; exact ⟨c, d, h, by simp, by simp⟩
  | either b _ ih => intro c d post hs h; exact ih c d post hs (h b)
  | call b _ ih =>
    intro c d post hs h
    cases b with
    | true => simpa using ih c d post hs h.1
    | false =>
      obtain ⟨c', d', h1, h2, h3⟩ := ih false false post hs h.2
      refine ⟨c', d', h1, ?_, ?_⟩
      · rw [h2]; simp [Ign]
      · rw [h3]; simp [Lax, Ign]
  | openOk _ ih =>
    intro c d post hs h
    exact ih c d post (fun h' s' p' hm => hs h' s' p' (List.mem_cons_of_mem _ hm)) (h.2 _ (hs _ _ _ (List.mem_cons_self)))
  | openFail _ ih =>
    intro c d post hs h
    obtain ⟨c', d', h1, h2, h3⟩ := ih false false post hs h.1
    refine ⟨c', d', h1, ?_, ?_⟩
    · rw [h2]; simp [Ign]
    · rw [h3]; simp [Lax, Ign]
  | @use x k n tr fs a m b _ ih =>
    intro c d post hs h
    have hs' := fun h' s' p' hm => hs h' s' p' (List.mem_cons_of_mem _ hm)
    cases b with
    | true => simpa using ih c d post hs' h.1
    | false =>
      obtain ⟨c', d', h1, h2, h3⟩ := ih false _ post hs' h.2
      have : Lax ign use σ (.using x) ↔ use (σ x) = true := by simp [Lax, Ign]
      refine ⟨c', d', h1, ?_, ?_⟩
      · rw [h2]; simp [Ign]
      · rw [h3]; simp [this, and_assoc]
  | @close x k n tr fs a m b _ ih =>
    intro c d post hs h
    have hs' := fun h' s' p' hm => hs h' s' p' (List.mem_cons_of_mem _ hm)
    cases b with
    | true => simpa using ih c d post hs' h.1
    | false =>
      obtain ⟨c', d', h1, h2, h3⟩ := ih _ _ post hs' h.2
      have e1 : Ign ign σ (.closing x) ↔ ign (σ x) = true := by simp [Ign]
      have e2 : Lax ign use σ (.closing x) ↔ ign (σ x) = true := by simp [Lax, Ign]
      refine ⟨c', d', h1, ?_, ?_⟩
      · rw [h2]; simp [e1, and_assoc]
      · rw [h3]; simp [e2, and_assoc]

theorem Hon.mono {α : Type} {P : Prog α} : ∀ {c d : Bool} {post post' : α → Bool → Bool → Prop}, Hon ign use σ P c d post →
    (∀ a c' d', post a c' d' → post' a c' d') → Hon ign use σ P c d post' := by
  induction P with
  | ret a => intro c d post post' h hp; exact hp _ _ _ h
  | either k ih => intro c d post post' h hp b; exact ih b (h b) hp
  | call k ih => intro c d post post' h hp; exact ⟨ih _ h.1 hp, ih _ h.2 hp⟩
  | «open» s p k ih => intro c d post post' h hp; exact ⟨ih _ h.1 hp, fun x hx => ih _ (h.2 x hx) hp⟩
  | use x k ih => intro c d post post' h hp; exact ⟨ih _ h.1 hp, ih _ h.2 hp⟩
  | close x k ih => intro c d post post' h hp; exact ⟨ih _ h.1 hp, ih _ h.2 hp⟩

theorem hon_bind {α β : Type} {P : Prog α} {f : α → Prog β} : ∀ {c d : Bool} {post : β → Bool → Bool → Prop},
    Hon ign use σ P c d (fun a c' d' => Hon ign use σ (f a) c' d' post) → Hon ign use σ (P.bind f) c d post := by
  induction P with
  | ret a => intro c d post h; exact h
  | either k ih => intro c d post h b; exact ih b (h b)
  | call k ih => intro c d post h; exact ⟨ih _ h.1, ih _ h.2⟩
  | «open» s p k ih => intro c d post h; exact ⟨ih _ h.1, fun x hx => ih _ (h.2 x hx)⟩
  | use x k ih => intro c d post h; exact ⟨ih _ h.1, ih _ h.2⟩
  | close x k ih => intro c d post h; exact ⟨ih _ h.1, ih _ h.2⟩

/-- what has failed stays so -/
theorem hon_false {α : Type} (P : Prog α) : ∀ d, Hon ign use σ P false d (fun _ c _ => c = false) := by
  induction P with
  | ret a => intro d; rfl
  | either k ih => intro d b; exact ih b d
  | call k ih => intro d; exact ⟨ih _ _, ih _ _⟩
  | «open» s p k ih => intro d; exact ⟨ih _ _, fun x _ => ih _ _⟩
  | use x k ih => intro d; exact ⟨ih _ _, ih _ _⟩
  | close x k ih => intro d; exact ⟨ih _ _, by simpa using ih false _⟩

/-- the result tells whether something failed -/
def Fair (a c d : Bool) : Prop := (a = true → d = true) ∧ (a = false → c = false)

def Honest (ign use : Site → Bool) (σ : Handle → Site) (P : Prog Bool) : Prop := ∀ c, Hon ign use σ P c true Fair

theorem fair_true {c : Bool} : Fair true c true := ⟨fun _ => rfl, fun h => by cases h⟩

theorem fair_false {d : Bool} : Fair false false d := ⟨fun h => (by cases h), fun _ => rfl⟩

theorem honest_ret : Honest ign use σ (.ret true) := fun _ => fair_true

theorem honest_either {k : Bool → Prog Bool} (h : ∀ b, Honest ign use σ (k b)) : Honest ign use σ (.either k) := fun c b => h b c

theorem honest_must {k : Prog Bool} (h : Honest ign use σ k) : Honest ign use σ (must k) := fun c => ⟨h c, fair_false⟩

theorem honest_reading {x : Handle} {k : Prog Bool} (h : Honest ign use σ k) : Honest ign use σ (reading x k) := fun c => ⟨h c, fair_false⟩

theorem honest_opening {s : Site} {p : Option Handle} {k : Handle → Prog Bool} (h : ∀ x, σ x = s → Honest ign use σ (k x)) :
    Honest ign use σ (opening s p k) := fun c => ⟨fair_false, fun x hx => h x hx c⟩

theorem honest_after {P k : Prog Bool} (hP : Honest ign use σ P) (hk : Honest ign use σ k) : Honest ign use σ (after P k) := by
  intro c
  refine hon_bind ((hP c).mono fun a c' d' h => ?_)
  cases a
  · rw [h.2 rfl]; exact fair_false
  · rw [h.1 rfl]; exact hk c'

theorem honest_each {α : Type} {f : α → Prog Bool} : ∀ (xs : List α), (∀ x ∈ xs, Honest ign use σ (f x)) → Honest ign use σ (each f xs)
  | [], _ => honest_ret
  | x :: xs, h => honest_after (h x (by simp)) (honest_each xs fun y hy => h y (by simp [hy]))

theorem honest_all {α : Type} {f : α → Prog Bool} : ∀ (xs : List α), (∀ x ∈ xs, Honest ign use σ (f x)) → Honest ign use σ (all f xs)
  | [], _ => honest_ret
  | x :: xs, h => by
    intro c
    refine hon_bind ((h x (by simp) c).mono fun a c' d' hac => ?_)
    refine hon_bind ?_
    cases a
    · rw [hac.2 rfl]
      exact (hon_false _ d').mono fun a c d hc => by rw [hc]; exact fair_false
    · rw [hac.1 rfl]
      exact (honest_all xs (fun y hy => h y (by simp [hy])) c').mono fun a c d hc => by
        show Fair (true && a) c d
        rw [Bool.true_and]; exact hc

/-- an error of Close is taken for the result exactly when it counts -/
theorem honest_deferring {x : Handle} {sets : Bool} {body : Prog Bool} (hs : ign (σ x) = !sets) (hb : Honest ign use σ body) :
    Honest ign use σ (deferring x sets body) := by
  intro c
  refine hon_bind ((hb c).mono fun a c' d' h => ?_)
  refine ⟨?_, ?_⟩
  · show Fair (a && (true || !sets)) c' d'; simpa using h
  · show Fair (a && (false || !sets)) (c' && ign (σ x)) (d' && ign (σ x))
    rw [hs]
    cases sets
    · simpa using h
    · simpa using fair_false

theorem honest_cleaning {body : Prog Bool} (hb : Honest ign use σ body) : Honest ign use σ (cleaning body) := by
  intro c
  refine hon_bind ((hb c).mono fun a c' d' h => ?_)
  refine ⟨show Fair (a && true) c' d' by simpa using h, show Fair (a && false) false false by simpa using fair_false⟩

/-- open, read, and close on both paths -/
theorem honest_readAll {s : Site} {p : Option Handle} (hs : ign s = false) {k : Prog Bool} (hk : Honest ign use σ k) :
    Honest ign use σ (opening s p fun h => .use h fun ok =>
      if !ok then .close h fun _ => .ret false
      else .close h fun ok => if !ok then .ret false else k) :=
  honest_opening fun x hx c => ⟨⟨hk c, show Fair false (c && ign (σ x)) _ by rw [hx, hs, Bool.and_false]; exact fair_false⟩,
    fair_false, fair_false⟩

/-! ### the functions -/

theorem honest_layerEntry {f : Bool × Option Handle} (h1 : ign .layerFile = false) : Honest ign use σ (layerEntry f) := by
  refine honest_must (honest_must ?_)
  split
  · exact honest_readAll h1 honest_ret
  · exact honest_ret

theorem honest_layerFromRefs {fs : List (Bool × Option Handle)} (h1 : ign .layerFile = false) : Honest ign use σ (layerFromRefs fs) :=
  honest_after (honest_each fs fun _ _ => honest_layerEntry h1) (honest_must (honest_must honest_ret))

theorem honest_layerFromDir {fs : List Bool} (h1 : ign .dirFile = false) : Honest ign use σ (layerFromDir fs) := by
  refine honest_after (honest_each fs fun f _ => honest_must (honest_must (honest_must ?_))) (honest_must (honest_must honest_ret))
  split
  · exact honest_readAll h1 honest_ret
  · exact honest_ret

theorem honest_writeLayer {dst : Option Handle} (h1 : ign .layer = false) : Honest ign use σ (writeLayer dst) := by
  refine honest_opening fun x hx => honest_deferring (by rw [hx, h1]; rfl) ?_
  cases dst with
  | none => exact honest_reading honest_ret
  | some d => exact honest_reading (honest_reading honest_ret)

theorem honest_layersEqual {n : Nat} (h1 : ign .compared = false) (h2 : use .compared = true) : Honest ign use σ (layersEqual n) := by
  refine honest_opening fun x hx => honest_deferring (by rw [hx, h1]; rfl) ?_
  refine honest_opening fun y hy => honest_deferring (by rw [hy, h1]; rfl) ?_
  refine honest_after (honest_each _ fun _ _ => ?_) (honest_reading (honest_reading (honest_either fun d => ?_)))
  · exact honest_reading (honest_reading (honest_reading (honest_reading honest_ret)))
  · cases d
    · have hu : use (σ x) = true := by rw [hx, h2]
      have hv : use (σ y) = true := by rw [hy, h2]
      refine fun c => ⟨⟨fair_true, fun t => ?_⟩, fun s => ?_⟩
      · rw [hv]
        cases t
        · exact fair_false
        · intro b; cases b
          · exact fair_false
          · exact fair_true
      · rw [hu]
        cases s
        · exact fair_false
        · refine ⟨fun b => ?_, fun t => ?_⟩
          · cases b
            · exact fair_false
            · exact fair_true
          · rw [hv]
            cases t
            · exact fair_false
            · intro b; cases b
              · exact fair_false
              · exact fair_true
    · exact honest_ret

theorem honest_parseLayer {n : Nat} (h1 : ign .layer = true) : Honest ign use σ (parseLayer n) :=
  honest_opening fun x hx => honest_deferring (by rw [hx, h1]; rfl)
    (honest_after (honest_each _ fun _ _ => honest_reading (honest_must (honest_reading honest_ret))) (honest_reading honest_ret))

theorem honest_load {ls : List Nat} (h1 : ign .layer = true) : Honest ign use σ (load ls) :=
  honest_after (honest_each ls fun _ _ => honest_parseLayer h1) (honest_must honest_ret)

theorem honest_dumpLayer {full : Bool} {n : Nat} (h1 : ign .layer = false) : Honest ign use σ (dumpLayer full n) := by
  refine honest_opening fun x hx => honest_deferring (by rw [hx, h1]; rfl) (honest_after (honest_each _ fun _ _ =>
    honest_reading (honest_must (honest_reading (honest_must honest_ret)))) (honest_reading ?_))
  split
  · exact honest_reading (honest_must honest_ret)
  · exact honest_must honest_ret

theorem honest_writeLayerToFile (h1 : ign .layer = false) (h2 : ign .saved = false) : Honest ign use σ writeLayerToFile := by
  refine fun c => ⟨?_, fun x hx => honest_deferring (by rw [hx, h2]; rfl) (honest_writeLayer h1) c⟩
  exact hon_bind ((hon_false _ _).mono fun a c d hc => by rw [hc]; exact fair_false)

theorem honest_httpGet (h1 : ign .body = false) : Honest ign use σ httpGet := honest_must (honest_readAll h1 (honest_must honest_ret))

theorem honest_gobuildCmd {named old : Bool} {n : Nat} (h1 : ign .layer = false) (h2 : ign .output = false) (h3 : ign .compared = false)
    (h4 : named = true ∧ old = true → use .compared = true) :
    Honest ign use σ (gobuildCmd named old n) := by
  have hw : Honest ign use σ (must (opening .output none fun f => deferring f true (writeLayer (some f)))) :=
    honest_must (honest_opening fun x hx => honest_deferring (by rw [hx, h2]; rfl) (honest_writeLayer h1))
  refine honest_must ?_
  split
  case isTrue hn =>
    simp only
    split
    case isTrue ho =>
      refine honest_must (honest_after (honest_layersEqual h3 (h4 ⟨hn, ho⟩)) (honest_either fun b => ?_))
      cases b
      · exact hw
      · exact honest_ret
    case isFalse => exact hw
  case isFalse => exact honest_writeLayer h1

/-- open, read, close without looking -/
theorem honest_peek {s : Site} {p : Option Handle} (hs : ign s = true) :
    Honest ign use σ (opening s p fun h => deferring h false (reading h (.ret true))) :=
  honest_opening fun x hx => honest_deferring (by rw [hx, hs]; rfl) (honest_reading honest_ret)

theorem honest_integrityCheck {z : Handle} {rows : Nat} (h1 : ign .record = true) (h2 : ign .checked = true) :
    Honest ign use σ (integrityCheck z rows) :=
  honest_must (honest_after (honest_peek h1) (honest_after (honest_all _ fun _ _ => honest_must (honest_opening fun x hx =>
    honest_deferring (by rw [hx, h2]; rfl) (honest_must (honest_reading honest_ret)))) (honest_must honest_ret)))

theorem honest_rewriteScript {z : Handle} {x : Unit} (h1 : ign .shebang = true) (h2 : ign .original = true) :
    Honest ign use σ (rewriteScript z x) := by
  refine honest_after (honest_peek h1) (honest_either fun b => ?_)
  cases b
  · exact honest_ret
  · exact honest_peek h2

theorem honest_pyWriteFile {p : Option Handle} (h1 : ign .pyOut = false) (h2 : ign .pyIn = false) : Honest ign use σ (pyWriteFile p) := by
  refine honest_must (honest_opening fun o ho c => ⟨⟨fair_false, fair_false⟩, fun i hi => ?_⟩)
  have hO : ign (σ o) = false := by rw [ho, h1]
  have hI : ign (σ i) = false := by rw [hi, h2]
  have bad : ∀ d, Hon ign use σ (.close i fun _ => .close o fun _ => .ret false) false d Fair :=
    fun d => ⟨⟨fair_false, fair_false⟩, fair_false, fair_false⟩
  refine ⟨⟨⟨⟨⟨fair_true, fair_false⟩, ?_⟩, ?_⟩, bad _⟩, bad _, bad _⟩
  · rw [hI, Bool.and_false]; exact ⟨fair_false, fair_false⟩
  · rw [hO, Bool.and_false]; exact bad _

theorem honest_compile {srcs : List (Option Handle)} (h1 : ign .pyOut = false) (h2 : ign .pyIn = false) : Honest ign use σ (compile srcs) :=
  honest_must (honest_cleaning (honest_after (honest_each srcs fun _ _ => honest_pyWriteFile h1 h2) (honest_must (honest_must honest_ret))))

theorem honest_createScripts {config : Option (Option Handle)} : Honest ign use σ (createScripts config) := by
  refine honest_must ?_
  cases config with
  | none => exact honest_ret
  | some p => exact honest_opening fun x _ => honest_reading (honest_must honest_ret)

theorem honest_record {fs : List (Option Handle)} (h1 : ign .recorded = true) : Honest ign use σ (record fs) := by
  refine honest_must (honest_after (honest_each fs fun _ _ => honest_must (honest_either fun b => ?_)) (honest_must honest_ret))
  cases b
  · exact honest_peek h1
  · exact honest_ret

theorem honest_installWheel {w : Install} (h1 : ∀ s ∈ [Site.wheel, .record, .checked, .wheelInfo, .shebang, .original, .recorded], ign s = true)
    (h2 : ∀ s ∈ [Site.pyOut, .pyIn, .layerFile], ign s = false) : Honest ign use σ (installWheel w) := by
  refine honest_must (honest_opening fun z hz => honest_deferring (by rw [hz, h1 _ (by decide)]; rfl) ?_)
  refine honest_after (honest_integrityCheck (h1 _ (by decide)) (h1 _ (by decide))) (honest_after (honest_must (honest_peek (h1 _ (by decide)))) ?_)
  refine honest_must (honest_after (honest_each _ fun _ _ => honest_rewriteScript (h1 _ (by decide)) (h1 _ (by decide))) ?_)
  refine honest_after (honest_compile (h2 _ (by decide)) (h2 _ (by decide))) (honest_after honest_createScripts ?_)
  exact honest_after (honest_record (h1 _ (by decide))) (honest_must (honest_layerFromRefs (h2 _ (by decide))))

/-! ### handles and their numbers -/

theorem runs_le {α : Type} {P : Prog α} {n m : Nat} {tr : List Event} {fs : List Fault} {a : α} (hr : Runs P n tr fs a m) : n ≤ m := by
  induction hr with
  | ret => exact Nat.le_refl _
  | openOk _ ih => exact Nat.le_of_succ_le ih
  | _ => assumption

theorem opened_of_lt {α : Type} {P : Prog α} {n m : Nat} {tr : List Event} {fs : List Fault} {a : α} (hr : Runs P n tr fs a m) :
    ∀ h, n ≤ h → h < m → ∃ s p, Event.opened h s p ∈ tr := by
  induction hr with
  | ret => intro h h1 h2; omega
  | either b _ ih => exact ih
  | call b _ ih => exact ih
  | openOk _ ih =>
    intro h h1 h2
    rcases Nat.eq_or_lt_of_le h1 with rfl | h1
    · exact ⟨_, _, List.mem_cons_self⟩
    · obtain ⟨s, p, hm⟩ := ih h h1 h2; exact ⟨s, p, List.mem_cons_of_mem _ hm⟩
  | openFail _ ih => exact ih
  | use b _ ih => intro h h1 h2; obtain ⟨s, p, hm⟩ := ih h h1 h2; exact ⟨s, p, List.mem_cons_of_mem _ hm⟩
  | close b _ ih => intro h h1 h2; obtain ⟨s, p, hm⟩ := ih h h1 h2; exact ⟨s, p, List.mem_cons_of_mem _ hm⟩

theorem faults_lt {α : Type} {P : Prog α} {n m : Nat} {tr : List Event} {fs : List Fault} {a : α} (hr : Runs P n tr fs a m) :
    ∀ (O : Opens) (post : α → Opens → Nat → Prop), Wp P O n post → Fresh O n →
      (∀ h, Fault.closing h ∈ fs → h < m) ∧ ∀ h, Fault.using h ∈ fs → h < m := by
  induction hr with
  | ret => intro O post _ _; exact ⟨fun h hm => (by cases hm), fun h hm => (by cases hm)⟩
  | either b _ ih => intro O post hw; exact ih _ _ (hw b)
  | call b _ ih =>
    intro O post hw hf
    have := ih _ _ (hw b) hf
    cases b <;> simpa using this
  | openOk _ ih => intro O post hw hf; exact ih _ _ hw.2.2 (fresh_cons hf)
  | openFail _ ih => intro O post hw hf; simpa using ih _ _ hw.2.1 hf
  | @use x k n tr fs a m b hr ih =>
    intro O post hw hf
    have := ih _ _ (hw.2 b) hf
    refine ⟨fun h hm => ?_, fun h hm => ?_⟩
    · refine this.1 h ?_
      cases b <;> simpa using hm
    · rcases List.mem_append.mp hm with hm | hm
      · cases b
        · simp only [Bool.false_eq_true, if_false, List.mem_singleton, Fault.using.injEq] at hm
          obtain ⟨s, p, h1, _⟩ := hw.1
          rw [hm]; exact Nat.lt_of_lt_of_le (hf _ h1) (runs_le hr)
        · simp at hm
      · exact this.2 h hm
  | @close x k n tr fs a m b hr ih =>
    intro O post hw hf
    have := ih _ _ (hw.2 b) (fun y hy => hf y (List.mem_filter.mp hy).1)
    refine ⟨fun h hm => ?_, fun h hm => ?_⟩
    · rcases List.mem_append.mp hm with hm | hm
      · cases b
        · simp only [Bool.false_eq_true, if_false, List.mem_singleton, Fault.closing.injEq] at hm
          rw [hm]; exact Nat.lt_of_lt_of_le hw.1.1 (runs_le hr)
        · simp at hm
      · exact this.1 h hm
    · refine this.2 h ?_
      cases b <;> simpa using hm

end Handles
