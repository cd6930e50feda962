import Verif.Fsutil.Handles
/-! A condition on programs that implies what C132 says of their runs. -/
namespace Handles

/-! ### what is seen -/

/-- the handle has been opened and not closed -/
def Spec.OpenAt (tr : List Event) (h : Handle) : Prop := (∃ s p, Event.opened h s p ∈ tr) ∧ Event.closed h ∉ tr

open Spec

/-- what must hold when an event happens after `pre` -/
def OkEvent (pre : List Event) : Event → Prop
  | .opened h _ p => (∀ q, p = some q → OpenAt pre q) ∧ Event.closed h ∉ pre ∧ ∀ s p, Event.opened h s p ∉ pre
  | .used h => ∃ s p, Event.opened h s p ∈ pre ∧ Event.closed h ∉ pre ∧ ∀ q, p = some q → OpenAt pre q
  | .closed h => Event.closed h ∈ pre ∨ ∀ s p, Event.opened h s p ∈ pre → s ≠ .entryPoints

/-! ### the condition -/

/-- the handles that are open, with where and from what archive -/
abbrev Opens := List (Handle × Site × Option Handle)

def Isopen (O : Opens) (h : Handle) : Prop := ∃ s p, (h, s, p) ∈ O

def Wp {α : Type} : Prog α → Opens → Nat → (α → Opens → Nat → Prop) → Prop
  | .ret a, O, n, post => post a O n
  | .either k, O, n, post => ∀ b, Wp (k b) O n post
  | .call k, O, n, post => ∀ b, Wp (k b) O n post
  | .open s p k, O, n, post => (∀ q, p = some q → Isopen O q) ∧ Wp (k none) O n post ∧ Wp (k (some n)) ((n, s, p) :: O) (n + 1) post
  | .use h k, O, n, post => (∃ s p, (h, s, p) ∈ O ∧ ∀ q, p = some q → Isopen O q) ∧ ∀ b, Wp (k b) O n post
  | .close h k, O, n, post => (h < n ∧ ∀ s p, (h, s, p) ∈ O → s ≠ .entryPoints) ∧ ∀ b, Wp (k b) (O.filter (·.1 ≠ h)) n post

/-- the open handles after the events -/
def Rep (pre : List Event) (O : Opens) : Prop := ∀ h s p, (h, s, p) ∈ O ↔ Event.opened h s p ∈ pre ∧ Event.closed h ∉ pre

def Below (pre : List Event) (n : Nat) : Prop := ∀ h, (Event.closed h ∈ pre → h < n) ∧ ∀ s p, Event.opened h s p ∈ pre → h < n

theorem Rep.isopen {pre : List Event} {O : Opens} (hr : Rep pre O) {q : Handle} (h : Isopen O q) : OpenAt pre q := by
  obtain ⟨s, p, h⟩ := h
  have := (hr q s p).mp h
  exact ⟨⟨s, p, this.1⟩, this.2⟩

theorem okFrom_cons {pre tr : List Event} {ev : Event} (h1 : OkEvent pre ev)
    (h2 : ∀ a e b, tr = a ++ e :: b → OkEvent (pre ++ [ev] ++ a) e) : ∀ a e b, ev :: tr = a ++ e :: b → OkEvent (pre ++ a) e := by
  intro a e b h
  cases a with
  | nil => rw [List.nil_append, List.cons.injEq] at h; rw [← h.1, List.append_nil]; exact h1
  | cons x a =>
    rw [List.cons_append, List.cons.injEq] at h
    have := h2 a e b h.2
    rw [← h.1]; simpa using this

theorem wp_sound {α : Type} {P : Prog α} {n m : Nat} {tr : List Event} {fs : List Fault} {a : α} (hrun : Runs P n tr fs a m) :
    ∀ (O : Opens) (post : α → Opens → Nat → Prop) (pre : List Event), Wp P O n post → Rep pre O → Below pre n →
      ∃ O', post a O' m ∧ Rep (pre ++ tr) O' ∧ ∀ x e y, tr = x ++ e :: y → OkEvent (pre ++ x) e := by
  induction hrun with
  | ret => intro O post pre hw hr hb; exact ⟨O, hw, by simpa using hr, by intro x e y h; simp at h⟩
  | either b _ ih => intro O post pre hw hr hb; exact ih O post pre (hw b) hr hb
  | call b _ ih => intro O post pre hw hr hb; exact ih O post pre (hw b) hr hb
  | @openOk s p k n tr fs a m _ ih =>
    intro O post pre hw hr hb
    have hn : Event.closed n ∉ pre := fun h => Nat.lt_irrefl _ ((hb n).1 h)
    have ho : ∀ s p, Event.opened n s p ∉ pre := fun s p h => Nat.lt_irrefl _ ((hb n).2 s p h)
    obtain ⟨O', h1, h2, h3⟩ := ih _ post (pre ++ [.opened n s p]) hw.2.2 (by
      intro h s' p'
      rw [List.mem_cons, hr h s' p']
      simp only [Prod.mk.injEq, List.mem_append, List.mem_singleton, Event.opened.injEq, reduceCtorEq, or_false]
      constructor
      · rintro (⟨rfl, rfl, rfl⟩ | h)
        · exact ⟨.inr ⟨rfl, rfl, rfl⟩, hn⟩
        · exact ⟨.inl h.1, h.2⟩
      · rintro ⟨h1 | h1, h2⟩
        · exact .inr ⟨h1, h2⟩
        · exact .inl h1) (by
      intro h
      refine ⟨fun hc => ?_, fun s' p' hc => ?_⟩
      · rw [List.mem_append] at hc
        rcases hc with hc | hc
        · exact Nat.lt_succ_of_lt ((hb h).1 hc)
        · simp at hc
      · rw [List.mem_append] at hc
        rcases hc with hc | hc
        · exact Nat.lt_succ_of_lt ((hb h).2 s' p' hc)
        · simp only [List.mem_singleton, Event.opened.injEq] at hc
          rw [hc.1]; exact Nat.lt_succ_self _)
    refine ⟨O', h1, by simpa using h2, okFrom_cons ⟨fun q hq => hr.isopen (hw.1 q hq), hn, ho⟩ h3⟩
  | openFail _ ih => intro O post pre hw hr hb; exact ih O post pre hw.2.1 hr hb
  | @use h k n tr fs a m b _ ih =>
    intro O post pre hw hr hb
    obtain ⟨O', h1, h2, h3⟩ := ih O post (pre ++ [.used h]) (hw.2 b) (by intro h' s p; rw [hr h' s p]; simp)
      (by intro h'; simpa using hb h')
    refine ⟨O', h1, by simpa using h2, okFrom_cons ?_ h3⟩
    obtain ⟨s, p, h4, h5⟩ := hw.1
    have := (hr h s p).mp h4
    exact ⟨s, p, this.1, this.2, fun q hq => hr.isopen (h5 q hq)⟩
  | @close h k n tr fs a m b _ ih =>
    intro O post pre hw hr hb
    obtain ⟨O', h1, h2, h3⟩ := ih _ post (pre ++ [.closed h]) (hw.2 b) (by
      intro h' s p
      rw [List.mem_filter, hr h' s p]
      simp only [decide_eq_true_eq, List.mem_append, List.mem_singleton, reduceCtorEq, or_false, Event.closed.injEq, not_or]
      constructor
      · rintro ⟨⟨a, b⟩, c⟩; exact ⟨a, b, c⟩
      · rintro ⟨a, b, c⟩; exact ⟨⟨a, b⟩, c⟩) (by
      intro h'
      refine ⟨fun hc => ?_, fun s p hc => ?_⟩
      · rw [List.mem_append, List.mem_singleton, Event.closed.injEq] at hc
        rcases hc with hc | hc
        · exact (hb h').1 hc
        · rw [hc]; exact hw.1.1
      · rw [List.mem_append] at hc
        rcases hc with hc | hc
        · exact (hb h').2 s p hc
        · simp at hc)
    refine ⟨O', h1, by simpa using h2, okFrom_cons ?_ h3⟩
    by_cases hc : Event.closed h ∈ pre
    · exact .inl hc
    · exact .inr fun s p ho => hw.1.2 s p ((hr h s p).mpr ⟨ho, hc⟩)

/-! ### composing -/

theorem Wp.mono {α : Type} {P : Prog α} : ∀ {O : Opens} {n : Nat} {post post' : α → Opens → Nat → Prop}, Wp P O n post →
    (∀ a O' m, post a O' m → post' a O' m) → Wp P O n post' := by
  induction P with
  | ret a => intro O n post post' h hp; exact hp _ _ _ h
  | either k ih => intro O n post post' h hp b; exact ih b (h b) hp
  | call k ih => intro O n post post' h hp b; exact ih b (h b) hp
  | «open» s p k ih => intro O n post post' h hp; exact ⟨h.1, ih _ h.2.1 hp, ih _ h.2.2 hp⟩
  | use h k ih => intro O n post post' h hp; exact ⟨h.1, fun b => ih b (h.2 b) hp⟩
  | close h k ih => intro O n post post' h hp; exact ⟨h.1, fun b => ih b (h.2 b) hp⟩

theorem wp_bind {α β : Type} {P : Prog α} {f : α → Prog β} : ∀ {O : Opens} {n : Nat} {post : β → Opens → Nat → Prop},
    Wp P O n (fun a O' m => Wp (f a) O' m post) → Wp (P.bind f) O n post := by
  induction P with
  | ret a => intro O n post h; exact h
  | either k ih => intro O n post h b; exact ih b (h b)
  | call k ih => intro O n post h b; exact ih b (h b)
  | «open» s p k ih => intro O n post h; exact ⟨h.1, ih _ h.2.1, ih _ h.2.2⟩
  | use h k ih => intro O n post h; exact ⟨h.1, fun b => ih b (h.2 b)⟩
  | close h k ih => intro O n post h; exact ⟨h.1, fun b => ih b (h.2 b)⟩

/-- what was open still is, and nothing else; but for a handle opened at `entryPoints`, when `e` -/
def Left (e : Bool) (O : Opens) (n : Nat) (O' : Opens) (m : Nat) : Prop :=
  n ≤ m ∧ ∃ L : Opens, O' = L ++ O ∧ (∀ x ∈ L, x.2.1 = .entryPoints ∧ n ≤ x.1 ∧ x.1 < m) ∧ (e = false → L = [])

def Fresh (O : Opens) (n : Nat) : Prop := ∀ x ∈ O, x.1 < n

/-- the handle may be read -/
def Good (O : Opens) (h : Handle) : Prop := ∃ s p, (h, s, p) ∈ O ∧ ∀ q, p = some q → Isopen O q

def Keeps (e : Bool) (A : List Handle) (P : Prog Bool) : Prop :=
  ∀ O n, Fresh O n → (∀ h ∈ A, Good O h) → Wp P O n (fun _ O' m => Left e O n O' m)

theorem Left.refl {e : Bool} {O : Opens} {n : Nat} : Left e O n O n := ⟨Nat.le_refl _, [], rfl, by simp, fun _ => rfl⟩

theorem Left.trans {e : Bool} {O O' O'' : Opens} {n m k : Nat} (h : Left e O n O' m) (h' : Left e O' m O'' k) : Left e O n O'' k := by
  obtain ⟨a1, L, a2, a3, a4⟩ := h
  obtain ⟨b1, M, b2, b3, b4⟩ := h'
  refine ⟨Nat.le_trans a1 b1, M ++ L, by rw [b2, a2, List.append_assoc], ?_, fun he => by rw [a4 he, b4 he]; rfl⟩
  intro x hx
  rcases List.mem_append.mp hx with hx | hx
  · obtain ⟨c1, c2, c3⟩ := b3 x hx; exact ⟨c1, Nat.le_trans a1 c2, c3⟩
  · obtain ⟨c1, c2, c3⟩ := a3 x hx; exact ⟨c1, c2, Nat.lt_of_lt_of_le c3 b1⟩

theorem Left.fresh {e : Bool} {O O' : Opens} {n m : Nat} (h : Left e O n O' m) (hf : Fresh O n) : Fresh O' m := by
  obtain ⟨a1, L, a2, a3, _⟩ := h
  intro x hx
  rw [a2] at hx
  rcases List.mem_append.mp hx with hx | hx
  · exact (a3 x hx).2.2
  · exact Nat.lt_of_lt_of_le (hf x hx) a1

theorem Isopen.mono {O O' : Opens} {h : Handle} (hi : Isopen O h) (hs : ∀ x ∈ O, x ∈ O') : Isopen O' h := by
  obtain ⟨s, p, hi⟩ := hi; exact ⟨s, p, hs _ hi⟩

theorem Good.mono {O O' : Opens} {h : Handle} (hg : Good O h) (hs : ∀ x ∈ O, x ∈ O') : Good O' h := by
  obtain ⟨s, p, h1, h2⟩ := hg; exact ⟨s, p, hs _ h1, fun q hq => (h2 q hq).mono hs⟩

theorem Good.isopen {O : Opens} {h : Handle} (hg : Good O h) : Isopen O h := by
  obtain ⟨s, p, h1, _⟩ := hg; exact ⟨s, p, h1⟩

theorem Left.good {e : Bool} {O O' : Opens} {n m : Nat} (h : Left e O n O' m) {q : Handle} (hg : Good O q) : Good O' q := by
  obtain ⟨_, L, a2, _⟩ := h
  exact hg.mono (fun x hx => by rw [a2]; simp [hx])

theorem keeps_ret {e : Bool} {A : List Handle} {b : Bool} : Keeps e A (.ret b) := fun _ _ _ _ => Left.refl

theorem keeps_either {e : Bool} {A : List Handle} {k : Bool → Prog Bool} (h : ∀ b, Keeps e A (k b)) : Keeps e A (.either k) :=
  fun O n hf hg b => h b O n hf hg

theorem keeps_call {e : Bool} {A : List Handle} {k : Bool → Prog Bool} (h : ∀ b, Keeps e A (k b)) : Keeps e A (.call k) :=
  fun O n hf hg b => h b O n hf hg

theorem keeps_must {e : Bool} {A : List Handle} {k : Prog Bool} (h : Keeps e A k) : Keeps e A (must k) :=
  keeps_call fun b => by cases b <;> simp [keeps_ret, h]

theorem keeps_use {e : Bool} {A : List Handle} {h : Handle} (hm : h ∈ A) {k : Bool → Prog Bool} (hk : ∀ b, Keeps e A (k b)) :
    Keeps e A (.use h k) := fun O n hf hg => ⟨hg h hm, fun b => hk b O n hf hg⟩

theorem keeps_reading {e : Bool} {A : List Handle} {h : Handle} (hm : h ∈ A) {k : Prog Bool} (hk : Keeps e A k) :
    Keeps e A (reading h k) := keeps_use hm fun b => by cases b <;> simp [keeps_ret, hk]

theorem keeps_readingShort {e : Bool} {A : List Handle} {h : Handle} (hm : h ∈ A) {k : Bool → Prog Bool} (hk : ∀ b, Keeps e A (k b)) :
    Keeps e A (readingShort h k) := keeps_use hm fun b => by
  cases b
  · exact keeps_either fun s => by cases s <;> simp [keeps_ret, hk]
  · exact hk _

theorem keeps_bind {e : Bool} {A : List Handle} {P : Prog Bool} {f : Bool → Prog Bool} (hP : Keeps e A P) (hf : ∀ b, Keeps e A (f b)) :
    Keeps e A (P.bind f) := by
  intro O n hfr hg
  refine wp_bind ((hP O n hfr hg).mono fun b O' m hl => ?_)
  exact (hf b O' m (hl.fresh hfr) (fun h hh => hl.good (hg h hh))).mono fun _ _ _ hl' => hl.trans hl'

theorem keeps_after {e : Bool} {A : List Handle} {P k : Prog Bool} (hP : Keeps e A P) (hk : Keeps e A k) : Keeps e A (after P k) :=
  keeps_bind hP fun b => by cases b <;> simp [keeps_ret, hk]

theorem keeps_each {e : Bool} {A : List Handle} {α : Type} {f : α → Prog Bool} : ∀ (xs : List α), (∀ x ∈ xs, Keeps e A (f x)) →
    Keeps e A (each f xs)
  | [], _ => keeps_ret
  | x :: xs, h => keeps_bind (h x (by simp)) fun b => by
    cases b
    · exact keeps_ret
    · exact keeps_each xs fun y hy => h y (by simp [hy])

theorem keeps_all {e : Bool} {A : List Handle} {α : Type} {f : α → Prog Bool} : ∀ (xs : List α), (∀ x ∈ xs, Keeps e A (f x)) →
    Keeps e A (all f xs)
  | [], _ => keeps_ret
  | x :: xs, h => keeps_bind (h x (by simp)) fun _ => keeps_bind (keeps_all xs fun y hy => h y (by simp [hy])) fun _ => keeps_ret

theorem filter_fresh {O : Opens} {n : Nat} (h : Fresh O n) : O.filter (·.1 ≠ n) = O := by
  rw [List.filter_eq_self]
  intro x hx
  have := h x hx
  simp only [ne_eq, decide_eq_true_eq]; exact Nat.ne_of_lt this

theorem filter_head {O : Opens} {n : Nat} {x : Site × Option Handle} (h : Fresh O n) : ((n, x) :: O).filter (·.1 ≠ n) = O := by
  rw [List.filter_cons_of_neg (by simp), filter_fresh h]

theorem fresh_cons {O : Opens} {n : Nat} {x : Site × Option Handle} (h : Fresh O n) : Fresh ((n, x) :: O) (n + 1) := by
  intro y hy
  rcases List.mem_cons.mp hy with rfl | hy
  · exact Nat.lt_succ_self _
  · exact Nat.lt_succ_of_lt (h y hy)

theorem good_head {O : Opens} {n : Nat} {s : Site} {p : Option Handle} (hp : ∀ q, p = some q → Isopen O q) : Good ((n, s, p) :: O) n :=
  ⟨s, p, by simp, fun q hq => (hp q hq).mono (fun x hx => by simp [hx])⟩

/-- open, and close before returning -/
theorem keeps_opening {e : Bool} {A : List Handle} {s : Site} {p : Option Handle} (hs : s ≠ .entryPoints) (hp : ∀ q, p = some q → q ∈ A)
    {sets : Bool} {body : Handle → Prog Bool} (hb : ∀ h, Keeps e (h :: A) (body h)) :
    Keeps e A (opening s p fun h => deferring h sets (body h)) := by
  intro O n hf hg
  have hp' : ∀ q, p = some q → Isopen O q := fun q hq => (hg q (hp q hq)).isopen
  refine ⟨hp', Left.refl, ?_⟩
  refine wp_bind ((hb n _ _ (fresh_cons hf) ?_).mono fun b O' m hl => ?_)
  · intro h hh
    rcases List.mem_cons.mp hh with rfl | hh
    · exact good_head hp'
    · exact (hg h hh).mono fun x hx => by simp [hx]
  · obtain ⟨a1, L, rfl, a3, a4⟩ := hl
    refine ⟨⟨a1, ?_⟩, fun c => ?_⟩
    · intro s' p' hm
      rcases List.mem_append.mp hm with hm | hm
      · have := (a3 _ hm).2.1; simp only at this; omega
      · rcases List.mem_cons.mp hm with hm | hm
        · cases hm; exact hs
        · exact absurd (hf _ hm) (Nat.lt_irrefl _)
    · refine ⟨by omega, L, ?_, fun x hx => ?_, a4⟩
      · rw [List.filter_append, filter_head hf]
        congr 1
        rw [List.filter_eq_self]
        intro x hx
        have := (a3 x hx).2.1
        simp only [ne_eq, decide_eq_true_eq]; exact Nat.ne_of_gt this
      · obtain ⟨c1, c2, c3⟩ := a3 x hx; exact ⟨c1, by omega, c3⟩

/-- open, read, and close on both paths -/
theorem keeps_readAll {e : Bool} {A : List Handle} {s : Site} {p : Option Handle} (hs : s ≠ .entryPoints) (hp : ∀ q, p = some q → q ∈ A)
    {k : Prog Bool} (hk : Keeps e A k) :
    Keeps e A (opening s p fun h => .use h fun ok =>
      if !ok then .close h fun _ => .ret false
      else .close h fun ok => if !ok then .ret false else k) := by
  intro O n hf hg
  have hp' : ∀ q, p = some q → Isopen O q := fun q hq => (hg q (hp q hq)).isopen
  have hc : n < n + 1 ∧ ∀ s' p', (n, s', p') ∈ (n, s, p) :: O → s' ≠ .entryPoints := by
    refine ⟨Nat.lt_succ_self _, fun s' p' hm => ?_⟩
    rcases List.mem_cons.mp hm with hm | hm
    · cases hm; exact hs
    · exact absurd (hf _ hm) (Nat.lt_irrefl _)
  have hl : Left e O n O (n + 1) := ⟨Nat.le_succ _, [], rfl, by simp, fun _ => rfl⟩
  refine ⟨hp', Left.refl, good_head hp', fun ok => ?_⟩
  cases ok with
  | false =>
    refine ⟨hc, fun _ => ?_⟩
    show Left e O n _ _
    rw [filter_head hf]; exact hl
  | true =>
    refine ⟨hc, fun c => ?_⟩
    rw [filter_head hf]
    cases c with
    | false => exact hl
    | true => exact (hk O (n + 1) (fun x hx => Nat.lt_succ_of_lt (hf x hx)) hg).mono fun _ _ _ hl' => hl.trans hl'

/-! ### the functions -/

theorem keeps_layerEntry {e : Bool} {A : List Handle} {f : Bool × Option Handle} (h : ∀ q, f.2 = some q → q ∈ A) :
    Keeps e A (layerEntry f) := by
  refine keeps_must (keeps_must ?_)
  split
  · exact keeps_readAll (by decide) h keeps_ret
  · exact keeps_ret

theorem keeps_layerFromRefs {e : Bool} {A : List Handle} {fs : List (Bool × Option Handle)} (h : ∀ f ∈ fs, ∀ q, f.2 = some q → q ∈ A) :
    Keeps e A (layerFromRefs fs) :=
  keeps_after (keeps_each fs fun f hf => keeps_layerEntry (h f hf)) (keeps_must (keeps_must keeps_ret))

theorem keeps_layerFromDir {e : Bool} {A : List Handle} {fs : List Bool} : Keeps e A (layerFromDir fs) := by
  refine keeps_after (keeps_each fs fun f hf => keeps_must (keeps_must (keeps_must ?_))) (keeps_must (keeps_must keeps_ret))
  split
  · exact keeps_readAll (by decide) (by simp) keeps_ret
  · exact keeps_ret

theorem keeps_writeLayer {e : Bool} {A : List Handle} {dst : Option Handle} (h : ∀ d, dst = some d → d ∈ A) : Keeps e A (writeLayer dst) := by
  refine keeps_opening (by decide) (by simp) fun l => ?_
  cases dst with
  | none => exact keeps_reading (by simp) keeps_ret
  | some d => exact keeps_reading (by simp) (keeps_reading (by simp [h d rfl]) keeps_ret)

theorem keeps_layersEqual {e : Bool} {A : List Handle} {n : Nat} : Keeps e A (layersEqual n) := by
  refine keeps_opening (by decide) (by simp) fun a => keeps_opening (by decide) (by simp) fun b =>
    keeps_after (keeps_each _ fun _ _ => ?_) (keeps_reading (by simp) (keeps_reading (by simp) (keeps_either fun d => ?_)))
  · exact keeps_reading (by simp) (keeps_reading (by simp) (keeps_reading (by simp) (keeps_reading (by simp) keeps_ret)))
  · cases d
    · rw [if_neg Bool.false_ne_true]
      refine keeps_readingShort (by simp) fun s => keeps_readingShort (by simp) fun t => ?_
      split
      · exact keeps_either fun _ => keeps_ret
      · exact keeps_ret
    · exact keeps_ret

theorem keeps_parseLayer {e : Bool} {A : List Handle} {n : Nat} : Keeps e A (parseLayer n) :=
  keeps_opening (by decide) (by simp) fun _ => keeps_after (keeps_each _ fun _ _ =>
    keeps_reading (by simp) (keeps_must (keeps_reading (by simp) keeps_ret))) (keeps_reading (by simp) keeps_ret)

theorem keeps_load {e : Bool} {A : List Handle} {ls : List Nat} : Keeps e A (load ls) :=
  keeps_after (keeps_each ls fun _ _ => keeps_parseLayer) (keeps_must keeps_ret)

theorem keeps_dumpLayer {e : Bool} {A : List Handle} {full : Bool} {n : Nat} : Keeps e A (dumpLayer full n) :=
  keeps_opening (by decide) (by simp) fun _ => keeps_after (keeps_each _ fun _ _ =>
    keeps_reading (by simp) (keeps_must (keeps_reading (by simp) (keeps_must keeps_ret)))) (keeps_reading (by simp) (by
      split
      · exact keeps_reading (by simp) (keeps_must keeps_ret)
      · exact keeps_must keeps_ret))

theorem keeps_writeLayerToFile {e : Bool} {A : List Handle} : Keeps e A writeLayerToFile := by
  intro O n hf hg
  have h2 := keeps_opening (e := e) (A := A) (s := .saved) (p := none) (sets := true) (by decide) (by simp)
    (body := fun h => writeLayer (some h)) (fun h => keeps_writeLayer (by simp)) O n hf hg
  exact ⟨by simp, keeps_bind (keeps_writeLayer (by simp)) (fun _ => keeps_ret) O n hf hg, h2.2.2⟩

theorem keeps_httpGet {e : Bool} {A : List Handle} : Keeps e A httpGet :=
  keeps_must (keeps_readAll (by decide) (by simp) (keeps_must keeps_ret))

theorem keeps_gobuildCmd {e : Bool} {A : List Handle} {named old : Bool} {n : Nat} : Keeps e A (gobuildCmd named old n) := by
  have hw : Keeps e A (must (opening .output none fun f => deferring f true (writeLayer (some f)))) :=
    keeps_must (keeps_opening (by decide) (by simp) fun f => keeps_writeLayer (by simp))
  refine keeps_must ?_
  split
  · simp only
    split
    · refine keeps_must (keeps_after keeps_layersEqual (keeps_either fun b => ?_))
      cases b
      · exact hw
      · exact keeps_ret
    · exact hw
  · exact keeps_writeLayer (by simp)

theorem keeps_integrityCheck {e : Bool} {A : List Handle} {z : Handle} (hz : z ∈ A) {rows : Nat} : Keeps e A (integrityCheck z rows) := by
  refine keeps_must (keeps_after (keeps_opening (by decide) (by simpa using hz) fun h => keeps_reading (by simp) keeps_ret)
    (keeps_after (keeps_all _ fun _ _ => keeps_must (keeps_opening (by decide) (by simpa using hz) fun h =>
      keeps_must (keeps_reading (by simp) keeps_ret))) (keeps_must keeps_ret)))

theorem keeps_parseDistInfoWheel {e : Bool} {A : List Handle} {z : Handle} (hz : z ∈ A) : Keeps e A (parseDistInfoWheel z) :=
  keeps_must (keeps_opening (by decide) (by simpa using hz) fun h => keeps_reading (by simp) keeps_ret)

theorem keeps_rewriteScript {e : Bool} {A : List Handle} {z : Handle} (hz : z ∈ A) {x : Unit} : Keeps e A (rewriteScript z x) := by
  refine keeps_after (keeps_opening (by decide) (by simpa using hz) fun h => keeps_reading (by simp) keeps_ret) (keeps_either fun b => ?_)
  cases b
  · exact keeps_ret
  · exact keeps_opening (by decide) (by simpa using hz) fun h => keeps_reading (by simp) keeps_ret

theorem keeps_pyWriteFile {e : Bool} {A : List Handle} {p : Option Handle} (hp : ∀ q, p = some q → q ∈ A) : Keeps e A (pyWriteFile p) := by
  refine keeps_must ?_
  intro O n hf hg
  have hp' : ∀ q, p = some q → Isopen O q := fun q hq => (hg q (hp q hq)).isopen
  have hp2 : ∀ q, p = some q → Isopen ((n, Site.pyOut, none) :: O) q := fun q hq => (hp' q hq).mono fun x hx => by simp [hx]
  have f1 := fresh_cons (x := (Site.pyOut, none)) hf
  have hO : ∀ {k s p}, n ≤ k → (k, s, p) ∈ O → False := fun {k s p} h hm => absurd (hf _ hm) (Nat.not_lt_of_le h)
  -- the four states
  have e1 : ((n, Site.pyOut, none) :: O).filter (·.1 ≠ n) = O := filter_head hf
  have e2 : ((n + 1, Site.pyIn, p) :: (n, Site.pyOut, none) :: O).filter (·.1 ≠ n + 1) = (n, Site.pyOut, none) :: O := filter_head f1
  have e3 : ((n + 1, Site.pyIn, p) :: (n, Site.pyOut, none) :: O).filter (·.1 ≠ n) = (n + 1, Site.pyIn, p) :: O := by
    rw [List.filter_cons_of_pos (by simp), e1]
  have e4 : ((n + 1, Site.pyIn, p) :: O).filter (·.1 ≠ n + 1) = O :=
    filter_head fun x hx => Nat.lt_succ_of_lt (hf x hx)
  have e5 : O.filter (·.1 ≠ n) = O := filter_fresh hf
  have e6 : O.filter (·.1 ≠ n + 1) = O := filter_fresh fun x hx => Nat.lt_succ_of_lt (hf x hx)
  have l1 : Left e O n O (n + 1) := ⟨Nat.le_succ _, [], rfl, by simp, fun _ => rfl⟩
  have l2 : Left e O n O (n + 2) := ⟨by omega, [], rfl, by simp, fun _ => rfl⟩
  have c0 : ∀ k, n ≤ k → ∀ s' p', (k, s', p') ∈ O → s' ≠ .entryPoints := fun k hk s' p' hm => (hO hk hm).elim
  have c1 : ∀ k, n ≤ k → ∀ s' p', (k, s', p') ∈ (n, Site.pyOut, none) :: O → s' ≠ .entryPoints := by
    intro k hk s' p' hm
    rcases List.mem_cons.mp hm with hm | hm
    · cases hm; decide
    · exact c0 k hk s' p' hm
  have c2 : ∀ k, n ≤ k → ∀ s' p', (k, s', p') ∈ (n + 1, Site.pyIn, p) :: (n, Site.pyOut, none) :: O → s' ≠ .entryPoints := by
    intro k hk s' p' hm
    rcases List.mem_cons.mp hm with hm | hm
    · cases hm; decide
    · exact c1 k hk s' p' hm
  have c3 : ∀ k, n ≤ k → ∀ s' p', (k, s', p') ∈ (n + 1, Site.pyIn, p) :: O → s' ≠ .entryPoints := by
    intro k hk s' p' hm
    rcases List.mem_cons.mp hm with hm | hm
    · cases hm; decide
    · exact c0 k hk s' p' hm
  refine ⟨by simp, Left.refl, hp2, ⟨⟨Nat.lt_succ_self _, c1 n (Nat.le_refl _)⟩, fun _ => ?_⟩, good_head hp2, fun r => ⟨?_, fun w => ?_⟩⟩
  · show Left e O n _ _; rw [e1]; exact l1
  · exact (good_head (O := O) (s := Site.pyOut) (p := none) (by simp)).mono fun x hx => List.mem_cons_of_mem _ hx
  · have bad : Wp (.close (n + 1) fun _ => .close n fun _ => .ret false) ((n + 1, Site.pyIn, p) :: (n, Site.pyOut, none) :: O) (n + 1 + 1)
        (fun (_ : Bool) O' m => Left e O n O' m) := by
      refine ⟨⟨Nat.lt_succ_self _, c2 (n + 1) (Nat.le_succ _)⟩, fun _ => ?_⟩
      rw [e2]
      refine ⟨⟨Nat.lt_succ_of_lt (Nat.lt_succ_self _), c1 n (Nat.le_refl _)⟩, fun _ => ?_⟩
      show Left e O n _ _; rw [e1]; exact l2
    cases r with
    | false => exact bad
    | true =>
      cases w with
      | false => exact bad
      | true =>
        refine ⟨⟨Nat.lt_succ_of_lt (Nat.lt_succ_self _), c2 n (Nat.le_refl _)⟩, fun co => ?_⟩
        rw [e3]
        cases co with
        | false =>
          refine ⟨⟨Nat.lt_succ_self _, c3 (n + 1) (Nat.le_succ _)⟩, fun _ => ?_⟩
          rw [e4]
          refine ⟨⟨Nat.lt_succ_of_lt (Nat.lt_succ_self _), c0 n (Nat.le_refl _)⟩, fun _ => ?_⟩
          show Left e O n _ _; rw [e5]; exact l2
        | true =>
          refine ⟨⟨Nat.lt_succ_self _, c3 (n + 1) (Nat.le_succ _)⟩, fun ci => ?_⟩
          rw [e4]
          cases ci with
          | false =>
            refine ⟨⟨Nat.lt_succ_self _, c0 (n + 1) (Nat.le_succ _)⟩, fun _ => ?_⟩
            show Left e O n _ _; rw [e6]; exact l2
          | true => intro b; cases b <;> exact l2

theorem keeps_compile {e : Bool} {A : List Handle} {srcs : List (Option Handle)} (h : ∀ p ∈ srcs, ∀ q, p = some q → q ∈ A) :
    Keeps e A (compile srcs) :=
  keeps_must (keeps_bind (keeps_after (keeps_each srcs fun p hp => keeps_pyWriteFile (h p hp)) (keeps_must (keeps_must keeps_ret)))
    fun _ => keeps_call fun _ => keeps_ret)

/-- the hook leaves the file open -/
theorem keeps_createScripts {e : Bool} {A : List Handle} {config : Option (Option Handle)} (he : e = false → config = none)
    (hp : ∀ p, config = some p → ∀ q, p = some q → q ∈ A) : Keeps e A (createScripts config) := by
  refine keeps_must ?_
  cases config with
  | none => exact keeps_ret
  | some p =>
    intro O n hf hg
    have hp' : ∀ q, p = some q → Isopen O q := fun q hq => (hg q (hp p rfl q hq)).isopen
    have hl : Left e O n ((n, Site.entryPoints, p) :: O) (n + 1) :=
      ⟨Nat.le_succ _, [(n, .entryPoints, p)], rfl, by simp, fun h => by cases he h⟩
    refine ⟨hp', Left.refl, good_head hp', fun ok => ?_⟩
    cases ok
    · exact hl
    · intro b
      cases b <;> exact hl

theorem keeps_record {e : Bool} {A : List Handle} {fs : List (Option Handle)} (h : ∀ p ∈ fs, ∀ q, p = some q → q ∈ A) :
    Keeps e A (record fs) := by
  refine keeps_must (keeps_after (keeps_each fs fun p hp => keeps_must (keeps_either fun b => ?_)) (keeps_must keeps_ret))
  cases b
  · exact keeps_opening (by decide) (h p hp) fun h => keeps_reading (by simp) keeps_ret
  · exact keeps_ret

theorem source_eq {z q : Handle} {b : Bool} (h : source z b = some q) : q = z := by
  unfold source at h; split at h <;> simp_all

theorem keeps_installWheel {e : Bool} {w : Install} (he : e = false → w.config = false) : Keeps e [] (installWheel w) := by
  refine keeps_must (keeps_opening (by decide) (by simp) fun z => ?_)
  refine keeps_after (keeps_integrityCheck (by simp)) (keeps_after (keeps_parseDistInfoWheel (by simp)) (keeps_must ?_))
  refine keeps_after (keeps_each _ fun _ _ => keeps_rewriteScript (by simp)) (keeps_after (keeps_compile ?_) ?_)
  · intro p hp q hq
    rw [List.eq_of_mem_replicate hp] at hq
    cases hq; simp
  · refine keeps_after (keeps_createScripts ?_ ?_) (keeps_after (keeps_record ?_) (keeps_must (keeps_layerFromRefs ?_)))
    · intro h; rw [he h]; rfl
    · intro p hp q hq
      split at hp
      · cases hp; cases hq; simp
      · cases hp
    · intro p hp q hq
      obtain ⟨b, _, hb⟩ := List.mem_map.mp hp
      rw [← hb] at hq; simp [source_eq hq]
    · intro f hf q hq
      obtain ⟨b, _, hb⟩ := List.mem_map.mp hf
      rw [← hb] at hq; simp [source_eq hq]

/-- the call installs a wheel with a file entry_points.txt -/
def Call.scripts : Call → Bool
  | .installWheel w => w.config
  | _ => false

theorem keeps_code (c : Call) : Keeps c.scripts [] (code c) := by
  cases c with
  | layerFromRefs fs =>
    refine keeps_layerFromRefs fun f hf q hq => ?_
    obtain ⟨b, _, hb⟩ := List.mem_map.mp hf
    rw [← hb] at hq; cases hq
  | layerFromDir fs => exact keeps_layerFromDir
  | writeLayer => exact keeps_writeLayer (dst := none) (by simp)
  | layersEqual n => exact keeps_layersEqual
  | load ls => exact keeps_load
  | dumpLayer full n => exact keeps_dumpLayer
  | writeLayerToFile => exact keeps_writeLayerToFile
  | httpGet => exact keeps_httpGet
  | gobuildCmd named old n => exact keeps_gobuildCmd
  | installWheel w => exact keeps_installWheel fun h => h

end Handles
