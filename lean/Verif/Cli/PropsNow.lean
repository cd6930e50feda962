import Verif.Cli.Now
import Verif.Go.Lemmas
/-! C81: one time for the whole run. -/
namespace Cli
open Go

/-- inside the critical section -/
def inside : Pc → Prop
  | .check | .run | .set | .unlock => True
  | _ => False

structure NowInv (env : Str) (shown : Time → Prop) (st : NowState) : Prop where
  owner : ∀ g, inside (st.pc g) → st.owner = some g
  flag : st.flag = true → ∃ t, st.now = some t
  notFlag : st.flag = false → ∀ t, st.now = some t → ∃ g, st.pc g = .set
  running : ∀ g, st.pc g = .run → st.flag = false ∧ st.now = none
  setting : ∀ g, st.pc g = .set → st.flag = false ∧ ∃ t, st.now = some t
  unlocking : ∀ g, st.pc g = .unlock → st.flag = true
  reading : ∀ g, st.pc g = .read → st.flag = true
  finished : ∀ g t, st.pc g = .done t → st.flag = true ∧ st.now = some t
  value : ∀ t, st.now = some t → ∃ clock, shown clock ∧ t = nowValue env clock
  held : ∀ h, st.owner = some h → inside (st.pc h)

theorem nowInv_init (env : Str) (shown : Time → Prop) : NowInv env shown nowInit := by
  constructor <;> intros <;> simp_all [nowInit, inside]

/-- the change of one program counter -/
theorem setPc_eq (st : NowState) (g h : Nat) (p : Pc) : (st.setPc g p).pc h = if h = g then p else st.pc h := rfl

theorem nowInv_step {env : Str} {shown : Time → Prop} {st st' : NowState} (hi : NowInv env shown st) (hs : NowStep env shown st st') : NowInv env shown st' := by
  have unique : ∀ g h, inside (st.pc g) → inside (st.pc h) → g = h := by
    intro g h h1 h2
    have := (hi.owner g h1).symm.trans (hi.owner h h2)
    exact Option.some.inj this
  cases hs with
  | fast g h1 h2 =>
    refine ⟨?_, hi.flag, ?_, ?_, ?_, ?_, ?_, ?_, hi.value, ?_⟩
    · intro h hh; rw [setPc_eq] at hh; split at hh
      · cases hh
      · exact hi.owner h hh
    · intro hf; exact absurd (h2.symm.trans hf) (by decide)
    all_goals intro h
    · intro hh; rw [setPc_eq] at hh; split at hh
      · cases hh
      · exact hi.running h hh
    · intro hh; rw [setPc_eq] at hh; split at hh
      · cases hh
      · exact hi.setting h hh
    · intro hh; rw [setPc_eq] at hh; split at hh
      · cases hh
      · exact hi.unlocking h hh
    · intro hh; exact h2
    · intro t hh; rw [setPc_eq] at hh; split at hh
      · cases hh
      · exact hi.finished h t hh
    · intro hh
      have h0 := hi.held h hh
      rw [setPc_eq]
      split
      · rename_i e; rw [e, h1] at h0; first | exact trivial | exact absurd h0 (by intro x; cases x)
      · exact h0
  | slow g h1 h2 =>
    refine ⟨?_, hi.flag, ?_, ?_, ?_, ?_, ?_, ?_, hi.value, ?_⟩
    · intro h hh; rw [setPc_eq] at hh; split at hh
      · cases hh
      · exact hi.owner h hh
    · intro hf t ht
      obtain ⟨h, hh⟩ := hi.notFlag hf t ht
      refine ⟨h, ?_⟩
      rw [setPc_eq, if_neg (by rintro rfl; rw [h1] at hh; cases hh)]
      exact hh
    all_goals intro h
    · intro hh; rw [setPc_eq] at hh; split at hh
      · cases hh
      · exact hi.running h hh
    · intro hh; rw [setPc_eq] at hh; split at hh
      · cases hh
      · exact hi.setting h hh
    · intro hh; rw [setPc_eq] at hh; split at hh
      · cases hh
      · exact hi.unlocking h hh
    · intro hh; rw [setPc_eq] at hh; split at hh
      · cases hh
      · exact hi.reading h hh
    · intro t hh; rw [setPc_eq] at hh; split at hh
      · cases hh
      · exact hi.finished h t hh
    · intro hh
      have h0 := hi.held h hh
      rw [setPc_eq]
      split
      · rename_i e; rw [e, h1] at h0; first | exact trivial | exact absurd h0 (by intro x; cases x)
      · exact h0
  | lock g h1 h2 =>
    have nobody : ∀ h, ¬ inside (st.pc h) := fun h hh => by rw [hi.owner h hh] at h2; cases h2
    refine ⟨?_, hi.flag, ?_, ?_, ?_, ?_, ?_, ?_, hi.value, ?_⟩
    · intro h hh; rw [setPc_eq] at hh; split at hh
      · rename_i e; rw [e]; rfl
      · exact absurd hh (nobody h)
    · intro hf t ht
      obtain ⟨h, hh⟩ := hi.notFlag hf t ht
      exact absurd (show inside (st.pc h) by rw [hh]; trivial) (nobody h)
    all_goals intro h
    · intro hh; rw [setPc_eq] at hh; split at hh
      · cases hh
      · exact hi.running h hh
    · intro hh; rw [setPc_eq] at hh; split at hh
      · cases hh
      · exact hi.setting h hh
    · intro hh; rw [setPc_eq] at hh; split at hh
      · cases hh
      · exact hi.unlocking h hh
    · intro hh; rw [setPc_eq] at hh; split at hh
      · cases hh
      · exact hi.reading h hh
    · intro t hh; rw [setPc_eq] at hh; split at hh
      · cases hh
      · exact hi.finished h t hh
    · intro hh
      have e : g = h := Option.some.inj hh
      rw [setPc_eq, if_pos e.symm]; trivial
  | again g h1 h2 =>
    refine ⟨?_, hi.flag, ?_, ?_, ?_, ?_, ?_, ?_, hi.value, ?_⟩
    · intro h hh; rw [setPc_eq] at hh; split at hh
      · rename_i e; rw [e]; exact hi.owner g (by rw [h1]; trivial)
      · exact hi.owner h hh
    · intro hf; exact absurd (h2.symm.trans hf) (by decide)
    all_goals intro h
    · intro hh; rw [setPc_eq] at hh; split at hh
      · cases hh
      · exact hi.running h hh
    · intro hh; rw [setPc_eq] at hh; split at hh
      · cases hh
      · exact hi.setting h hh
    · intro hh; exact h2
    · intro hh; rw [setPc_eq] at hh; split at hh
      · cases hh
      · exact hi.reading h hh
    · intro t hh; rw [setPc_eq] at hh; split at hh
      · cases hh
      · exact hi.finished h t hh
    · intro hh
      have h0 := hi.held h hh
      rw [setPc_eq]
      split
      · rename_i e; rw [e, h1] at h0; first | exact trivial | exact absurd h0 (by intro x; cases x)
      · exact h0
  | first g h1 h2 =>
    have hnone : st.now = none := by
      cases hn : st.now with
      | none => rfl
      | some t =>
        obtain ⟨h, hh⟩ := hi.notFlag h2 t hn
        have := unique g h (by rw [h1]; trivial) (by rw [hh]; trivial)
        rw [this, hh] at h1; cases h1
    refine ⟨?_, hi.flag, ?_, ?_, ?_, ?_, ?_, ?_, hi.value, ?_⟩
    · intro h hh; rw [setPc_eq] at hh; split at hh
      · rename_i e; rw [e]; exact hi.owner g (by rw [h1]; trivial)
      · exact hi.owner h hh
    · intro _ t ht; rw [show ((st.setPc g .run).now) = st.now from rfl, hnone] at ht; cases ht
    all_goals intro h
    · intro _; exact ⟨h2, hnone⟩
    · intro hh; rw [setPc_eq] at hh; split at hh
      · cases hh
      · exact hi.setting h hh
    · intro hh; rw [setPc_eq] at hh; split at hh
      · cases hh
      · exact hi.unlocking h hh
    · intro hh; rw [setPc_eq] at hh; split at hh
      · cases hh
      · exact hi.reading h hh
    · intro t hh; rw [setPc_eq] at hh; split at hh
      · cases hh
      · exact hi.finished h t hh
    · intro hh
      have h0 := hi.held h hh
      rw [setPc_eq]
      split
      · rename_i e; rw [e, h1] at h0; first | exact trivial | exact absurd h0 (by intro x; cases x)
      · exact h0
  | run g clock hcl h1 =>
    obtain ⟨hf, hn⟩ := hi.running g h1
    refine ⟨?_, fun _ => ⟨_, rfl⟩, ?_, ?_, ?_, ?_, ?_, ?_, ?_, ?_⟩
    · intro h hh; rw [setPc_eq] at hh; split at hh
      · rename_i e; rw [e]; exact hi.owner g (by rw [h1]; trivial)
      · exact hi.owner h hh
    · intro _ t _; exact ⟨g, by rw [setPc_eq, if_pos rfl]⟩
    · intro h hh; rw [setPc_eq] at hh; split at hh
      · cases hh
      · rename_i e
        exact absurd (unique h g (by rw [hh]; trivial) (by rw [h1]; trivial)) e
    · intro h hh; rw [setPc_eq] at hh; split at hh
      · exact ⟨hf, _, rfl⟩
      · exact ⟨hf, _, rfl⟩
    · intro h hh; rw [setPc_eq] at hh; split at hh
      · cases hh
      · exact hi.unlocking h hh
    · intro h hh; rw [setPc_eq] at hh; split at hh
      · cases hh
      · exact hi.reading h hh
    · intro h t hh; rw [setPc_eq] at hh; split at hh
      · cases hh
      · exact absurd (hf.symm.trans (hi.finished h t hh).1) (by decide)
    · intro t ht; cases ht; exact ⟨clock, hcl, rfl⟩
    · intro h hh
      have h0 := hi.held h hh
      rw [setPc_eq]
      split
      · rename_i e; rw [e, h1] at h0; first | exact trivial | exact absurd h0 (by intro x; cases x)
      · exact h0
  | set g h1 =>
    obtain ⟨hf, hn⟩ := hi.setting g h1
    refine ⟨?_, fun _ => hn, ?_, ?_, ?_, fun _ _ => rfl, fun _ _ => rfl, ?_, hi.value, ?_⟩
    · intro h hh; rw [setPc_eq] at hh; split at hh
      · rename_i e; rw [e]; exact hi.owner g (by rw [h1]; trivial)
      · exact hi.owner h hh
    · intro hx; cases hx
    · intro h hh; rw [setPc_eq] at hh; split at hh
      · cases hh
      · rename_i e
        exact absurd (unique h g (by rw [hh]; trivial) (by rw [h1]; trivial)) e
    · intro h hh; rw [setPc_eq] at hh; split at hh
      · cases hh
      · rename_i e
        exact absurd (unique h g (by rw [hh]; trivial) (by rw [h1]; trivial)) e
    · intro h t hh; rw [setPc_eq] at hh; split at hh
      · cases hh
      · exact absurd (hf.symm.trans (hi.finished h t hh).1) (by decide)
    · intro h hh
      have h0 := hi.held h hh
      rw [setPc_eq]
      split
      · rename_i e; rw [e, h1] at h0; first | exact trivial | exact absurd h0 (by intro x; cases x)
      · exact h0
  | unlock g h1 =>
    have hf := hi.unlocking g h1
    refine ⟨?_, hi.flag, ?_, ?_, ?_, ?_, ?_, ?_, hi.value, ?_⟩
    · intro h hh; rw [setPc_eq] at hh; split at hh
      · cases hh
      · rename_i e
        exact absurd (unique h g hh (by rw [h1]; trivial)) e
    · intro hx; exact absurd (hf.symm.trans hx) (by decide)
    all_goals intro h
    · intro hh; rw [setPc_eq] at hh; split at hh
      · cases hh
      · exact hi.running h hh
    · intro hh; rw [setPc_eq] at hh; split at hh
      · cases hh
      · exact hi.setting h hh
    · intro hh; exact hf
    · intro hh; exact hf
    · intro t hh; rw [setPc_eq] at hh; split at hh
      · cases hh
      · exact hi.finished h t hh
    · intro hh; cases hh
  | read g h1 =>
    have hf := hi.reading g h1
    obtain ⟨t0, ht0⟩ := hi.flag hf
    refine ⟨?_, hi.flag, ?_, ?_, ?_, ?_, ?_, ?_, hi.value, ?_⟩
    · intro h hh; rw [setPc_eq] at hh; split at hh
      · cases hh
      · exact hi.owner h hh
    · intro hx; exact absurd (hf.symm.trans hx) (by decide)
    all_goals intro h
    · intro hh; rw [setPc_eq] at hh; split at hh
      · cases hh
      · exact hi.running h hh
    · intro hh; rw [setPc_eq] at hh; split at hh
      · cases hh
      · exact hi.setting h hh
    · intro hh; exact hf
    · intro hh; exact hf
    · intro t hh; rw [setPc_eq] at hh; split at hh
      · cases hh
        refine ⟨hf, ?_⟩
        rw [show ((st.setPc g _).now) = st.now from rfl, ht0]; rfl
      · exact hi.finished h t hh
    · intro hh
      have h0 := hi.held h hh
      rw [setPc_eq]
      split
      · rename_i e; rw [e, h1] at h0; first | exact trivial | exact absurd h0 (by intro x; cases x)
      · exact h0

theorem nowInv_reach {env : Str} {shown : Time → Prop} {st : NowState} (h : NowReach env shown st) : NowInv env shown st := by
  induction h with
  | init => exact nowInv_init env shown
  | step _ hs ih => exact nowInv_step ih hs

/-- **C81** However the calls of `Now` interleave and whatever the clock shows, all calls that returned gave the same time. -/
theorem C81_same {env : Str} {shown : Time → Prop} {st : NowState} (h : NowReach env shown st) {g g' : Nat} {t t' : Time} (h1 : st.pc g = .done t)
    (h2 : st.pc g' = .done t') : t = t' := by
  have hi := nowInv_reach h
  exact Option.some.inj ((hi.finished g t h1).2.symm.trans (hi.finished g' t' h2).2)

namespace Spec
/-- the value of a string of decimal digits -/
def decimal (s : Str) : Nat := s.foldl (fun n c => 10 * n + (c.toNat - '0'.toNat)) 0

def IsDecimal (s : Str) : Prop := s ≠ [] ∧ ∀ c ∈ s, '0' ≤ c ∧ c ≤ '9'
end Spec

/-- **C81** If `SOURCE_DATE_EPOCH` is a decimal number (of at most 63 bits), every call returns that many seconds after 1970. -/
theorem C81_epoch {env : Str} {shown : Time → Prop} (hd : Spec.IsDecimal env) (hr : Spec.decimal env < 2 ^ 63) {st : NowState} (h : NowReach env shown st)
    {g : Nat} {t : Time} (h1 : st.pc g = .done t) : t = (Spec.decimal env : Int) * 1000000000 := by
  have hi := nowInv_reach h
  obtain ⟨clock, _, rfl⟩ := hi.value t (hi.finished g t h1).2
  have ha : atoi env = some (Spec.decimal env : Int) := by
    have hall : env.all isDig = true := by
      rw [List.all_eq_true]
      intro c hc
      obtain ⟨h1, h2⟩ := hd.2 c hc
      unfold isDig
      simp [h1, h2]
    have hv : atoiU env = some (Spec.decimal env) := by
      unfold atoiU
      rw [if_pos ⟨hd.1, hall⟩]
      congr 1
      unfold digitsVal Spec.decimal digVal
      congr 1
      funext n c
      omega
    rw [atoi_of_digits hall, hv]
    simp only
    rw [if_pos hr]
  unfold nowValue
  rw [ha]

/-- **C81** If it is empty or has a character that is neither a digit nor a sign, the time is one the clock showed. -/
theorem C81_clock {env : Str} {shown : Time → Prop} (hd : env = [] ∨ ∃ c ∈ env, isDig c = false ∧ c ≠ '-' ∧ c ≠ '+') {st : NowState}
    (h : NowReach env shown st) {g : Nat} {t : Time} (h1 : st.pc g = .done t) : shown t := by
  have hi := nowInv_reach h
  obtain ⟨clock, hc, rfl⟩ := hi.value t (hi.finished g t h1).2
  have hU : ∀ s : Str, (∃ c ∈ s, isDig c = false) → atoiU s = none := by
    rintro s ⟨c, hc, hf⟩
    unfold atoiU
    rw [if_neg]
    rintro ⟨_, h2⟩
    rw [List.all_eq_true.mp h2 c hc] at hf
    cases hf
  have ha : atoi env = none := by
    rcases hd with rfl | ⟨c, hc, hf, hm, hp⟩
    · rfl
    · unfold atoi
      split
      · rename_i t
        rw [hU t ⟨c, by rcases List.mem_cons.mp hc with e | e; exact absurd e hm; exact e, hf⟩]
      · rename_i t
        rw [hU t ⟨c, by rcases List.mem_cons.mp hc with e | e; exact absurd e hp; exact e, hf⟩]
      · rw [hU _ ⟨c, hc, hf⟩]
  unfold nowValue
  rw [ha]
  exact hc

namespace Spec
/-- the integer that a text of digits with or without a sign stands for -/
def ReadsInt (s : Str) (z : Int) : Prop :=
  ∃ d, IsDecimal d ∧ ((s = d ∧ z = decimal d) ∨ (s = '+' :: d ∧ z = decimal d) ∨ (s = '-' :: d ∧ z = -(decimal d : Int)))
end Spec

theorem atoiU_spec (s : Str) (n : Nat) : atoiU s = some n ↔ Spec.IsDecimal s ∧ n = Spec.decimal s := by
  have hv : digitsVal s = Spec.decimal s := by
    unfold digitsVal Spec.decimal digVal
    congr 1
    funext n c
    omega
  have hall : s.all isDig = true ↔ ∀ c ∈ s, '0' ≤ c ∧ c ≤ '9' := by
    rw [List.all_eq_true]
    constructor <;> intro h c hc <;> have := h c hc <;> simpa [isDig] using this
  unfold atoiU Spec.IsDecimal
  rw [← hall, hv]
  split
  · rename_i h
    exact ⟨fun e => ⟨h, (Option.some.inj e).symm⟩, fun e => by rw [e.2]⟩
  · rename_i h
    exact ⟨fun e => (by cases e), fun e => absurd e.1 h⟩

theorem atoi_spec (s : Str) (z : Int) : atoi s = some z ↔ Spec.ReadsInt s z ∧ -2 ^ 63 ≤ z ∧ z < 2 ^ 63 := by
  have sign : ∀ (c : Char) (t : Str), ¬ ('0' ≤ c ∧ c ≤ '9') → ¬ Spec.IsDecimal (c :: t) := fun c t h hd => h (hd.2 c (by simp))
  have pos : ∀ t : Str, (match atoiU t with
      | some n => if n < 2 ^ 63 then some (n : Int) else none
      | none => none) = some z ↔ (Spec.IsDecimal t ∧ z = Spec.decimal t) ∧ -2 ^ 63 ≤ z ∧ z < 2 ^ 63 := by
    intro t
    cases ha : atoiU t with
    | none =>
      refine ⟨fun e => (by cases e), fun e => ?_⟩
      have := (atoiU_spec t _).mpr ⟨e.1.1, rfl⟩
      rw [ha] at this; cases this
    | some n =>
      obtain ⟨h1, rfl⟩ := (atoiU_spec t n).mp ha
      show (if Spec.decimal t < 2 ^ 63 then some ((Spec.decimal t : Nat) : Int) else none) = some z ↔ _
      by_cases hlt : Spec.decimal t < 2 ^ 63
      · rw [if_pos hlt]
        refine ⟨fun e => ?_, fun e => by rw [e.1.2]⟩
        obtain rfl := (Option.some.inj e).symm
        exact ⟨⟨h1, rfl⟩, by omega, by omega⟩
      · rw [if_neg hlt]
        refine ⟨fun e => (by cases e), fun e => ?_⟩
        have := e.1.2; have := e.2.2
        omega
  unfold atoi
  split
  · rename_i t
    have hn : ¬ Spec.IsDecimal ('-' :: t) := sign _ _ (by decide)
    have hr : Spec.ReadsInt ('-' :: t) z ↔ Spec.IsDecimal t ∧ z = -(Spec.decimal t : Int) := by
      constructor
      · rintro ⟨d, hd, ⟨rfl, _⟩ | ⟨e, _⟩ | ⟨e, h⟩⟩
        · exact absurd hd hn
        · injection e with e; exact absurd e (by decide)
        · injection e with _ e; subst e; exact ⟨hd, h⟩
      · rintro ⟨hd, h⟩; exact ⟨t, hd, .inr (.inr ⟨rfl, h⟩)⟩
    rw [hr]
    cases ha : atoiU t with
    | none =>
      refine ⟨fun e => (by cases e), fun e => ?_⟩
      have := (atoiU_spec t _).mpr ⟨e.1.1, rfl⟩
      rw [ha] at this; cases this
    | some n =>
      obtain ⟨h1, rfl⟩ := (atoiU_spec t n).mp ha
      show (if Spec.decimal t ≤ 2 ^ 63 then some (-((Spec.decimal t : Nat) : Int)) else none) = some z ↔ _
      by_cases hlt : Spec.decimal t ≤ 2 ^ 63
      · rw [if_pos hlt]
        refine ⟨fun e => ?_, fun e => by rw [e.1.2]⟩
        obtain rfl := (Option.some.inj e).symm
        exact ⟨⟨h1, rfl⟩, by omega, by omega⟩
      · rw [if_neg hlt]
        refine ⟨fun e => (by cases e), fun e => ?_⟩
        have := e.1.2; have := e.2.1
        omega
  · rename_i t
    have hn : ¬ Spec.IsDecimal ('+' :: t) := sign _ _ (by decide)
    refine (pos t).trans ?_
    have hr : Spec.ReadsInt ('+' :: t) z ↔ Spec.IsDecimal t ∧ z = (Spec.decimal t : Int) := by
      constructor
      · rintro ⟨d, hd, ⟨rfl, _⟩ | ⟨e, h⟩ | ⟨e, h⟩⟩
        · exact absurd hd hn
        · injection e with _ e; subst e; exact ⟨hd, h⟩
        · injection e with e; exact absurd e (by decide)
      · rintro ⟨hd, h⟩; exact ⟨t, hd, .inr (.inl ⟨rfl, h⟩)⟩
    rw [hr]
  · rename_i h1 h2
    refine (pos s).trans ?_
    have hr : Spec.ReadsInt s z ↔ Spec.IsDecimal s ∧ z = (Spec.decimal s : Int) := by
      constructor
      · rintro ⟨d, hd, ⟨rfl, h⟩ | ⟨e, h⟩ | ⟨e, h⟩⟩
        · exact ⟨hd, h⟩
        · exact absurd e (h2 d)
        · exact absurd e (h1 d)
      · rintro ⟨hd, h⟩; exact ⟨s, hd, .inl ⟨rfl, h⟩⟩
    rw [hr]

/-- **C81** Exactly: if `SOURCE_DATE_EPOCH` is a decimal integer, with or without a sign, of 64 bits, then every call returns that many
seconds after (or before) 1970, and otherwise a time that the clock showed. -/
theorem C81_exact {env : Str} {shown : Time → Prop} {st : NowState} (h : NowReach env shown st) {g : Nat} {t : Time} (h1 : st.pc g = .done t) :
    (∀ z, Spec.ReadsInt env z → -2 ^ 63 ≤ z → z < 2 ^ 63 → t = z * 1000000000) ∧
    ((¬ ∃ z, Spec.ReadsInt env z ∧ -2 ^ 63 ≤ z ∧ z < 2 ^ 63) → shown t) := by
  have hi := nowInv_reach h
  obtain ⟨clock, hc, rfl⟩ := hi.value t (hi.finished g t h1).2
  constructor
  · intro z hz h2 h3
    unfold nowValue
    rw [(atoi_spec env z).mpr ⟨hz, h2, h3⟩]
  · intro hn
    unfold nowValue
    cases ha : atoi env with
    | none => exact hc
    | some z => exact absurd ⟨z, (atoi_spec env z).mp ha⟩ hn

example : Spec.ReadsInt "-3600".toList (-3600) := ⟨"3600".toList, ⟨by decide, by decide +kernel⟩, .inr (.inr ⟨rfl, by decide +kernel⟩)⟩

/-- **C81** No deadlock: as long as a call has not returned, some goroutine can go on. -/
theorem C81_progress {env : Str} {shown : Time → Prop} {clock : Time} (hc : shown clock) {st : NowState} (h : NowReach env shown st)
    {g : Nat} (hg : ∀ t, st.pc g ≠ .done t) : ∃ st', NowStep env shown st st' := by
  have hi := nowInv_reach h
  have crit : ∀ k, inside (st.pc k) → ∃ st', NowStep env shown st st' := by
    intro k hk
    cases hp : st.pc k with
    | check =>
      cases hf : st.flag with
      | true => exact ⟨_, .again st k hp hf⟩
      | false => exact ⟨_, .first st k hp hf⟩
    | run => exact ⟨_, .run st k clock hc hp⟩
    | set => exact ⟨_, .set st k hp⟩
    | unlock => exact ⟨_, .unlock st k hp⟩
    | start => rw [hp] at hk; cases hk
    | lock => rw [hp] at hk; cases hk
    | read => rw [hp] at hk; cases hk
    | done t => rw [hp] at hk; cases hk
  cases hp : st.pc g with
  | start =>
    cases hf : st.flag with
    | true => exact ⟨_, .fast st g hp hf⟩
    | false => exact ⟨_, .slow st g hp hf⟩
  | lock =>
    cases ho : st.owner with
    | none => exact ⟨_, .lock st g hp ho⟩
    | some k => exact crit k (hi.held k ho)
  | check => exact crit g (by rw [hp]; trivial)
  | run => exact crit g (by rw [hp]; trivial)
  | set => exact crit g (by rw [hp]; trivial)
  | unlock => exact crit g (by rw [hp]; trivial)
  | read => exact ⟨_, .read st g hp⟩
  | done t => exact absurd hp (hg t)

/-- a run in which two calls interleave and return: the second one waits for the mutex while the first one stores the time -/
example : ∃ st, NowReach "100".toList (fun _ => True) st ∧ st.pc 0 = .done 100000000000 ∧ st.pc 1 = .done 100000000000 := by
  refine ⟨_, .step (.step (.step (.step (.step (.step (.step (.step (.step (.step (.step (.step (.step .init
    (.slow _ 0 ?_ ?_)) (.slow _ 1 ?_ ?_)) (.lock _ 0 ?_ ?_)) (.first _ 0 ?_ ?_)) (.run _ 0 7 trivial ?_)) (.set _ 0 ?_)) (.unlock _ 0 ?_))
    (.lock _ 1 ?_ ?_)) (.again _ 1 ?_ ?_)) (.read _ 0 ?_)) (.unlock _ 1 ?_)) (.read _ 1 ?_)) (.fast _ 2 ?_ ?_), ?_, ?_⟩ <;> rfl

example : Spec.IsDecimal "100".toList ∧ Spec.decimal "100".toList < 2 ^ 63 :=
  ⟨⟨by decide, by decide +kernel⟩, by decide +kernel⟩

end Cli
