import Verif.Fsutil.FaultsLemmas
/-! C141: a function returns an error exactly when something it did has failed, but for the closing of some files it has only
read. -/
namespace Handles

/-- the files whose closing may fail unnoticed: the wheel and what is read from it to check and to record it; and the layers that
are loaded -/
def Spec.unnoticed : Call → Site → Bool
  | .load _, .layer => true
  | .installWheel _, .wheel | .installWheel _, .record | .installWheel _, .checked | .installWheel _, .wheelInfo
  | .installWheel _, .shebang | .installWheel _, .original | .installWheel _, .recorded => true
  | _, _ => false

/-- the failure is that of such a closing -/
def Spec.Unnoticed (c : Call) (tr : List Event) (f : Fault) : Prop :=
  ∃ h s p, f = .closing h ∧ Event.opened h s p ∈ tr ∧ Spec.unnoticed c s = true

/-- the functions that compare layers -/
def Spec.compares : Call → Bool
  | .layersEqual _ => true
  | .gobuildCmd named old _ => named && old
  | _ => false

/-- the failure is that of reading a layer in order to compare it -/
def Spec.Comparing (c : Call) (tr : List Event) (f : Fault) : Prop :=
  Spec.compares c = true ∧ ∃ h p, f = .using h ∧ Event.opened h .compared p ∈ tr

open Spec

/-- where reading may fail without the function failing -/
def passed (c : Call) (s : Site) : Bool := compares c && decide (s = .compared)

theorem honest_code (σ : Handle → Site) (c : Call) : Honest (unnoticed c) (passed c) σ (code c) := by
  cases c with
  | layerFromRefs fs => exact honest_layerFromRefs rfl
  | layerFromDir fs => exact honest_layerFromDir rfl
  | writeLayer => exact honest_writeLayer (ign := unnoticed .writeLayer) (dst := none) rfl
  | layersEqual n => exact honest_layersEqual rfl rfl
  | load ls => exact honest_load rfl
  | dumpLayer full n => exact honest_dumpLayer rfl
  | writeLayerToFile => exact honest_writeLayerToFile rfl rfl
  | httpGet => exact honest_httpGet rfl
  | gobuildCmd named old n =>
    refine honest_gobuildCmd rfl rfl rfl fun h => ?_
    rw [passed, compares, h.1, h.2]; rfl
  | installWheel w => exact honest_installWheel (by simp [unnoticed]) (by simp [unnoticed])

/-- a handle is opened once -/
theorem opened_once {c : Call} {n m : Nat} {tr : List Event} {fs : List Fault} {ok : Bool} (hr : Runs (code c) n tr fs ok m)
    {h : Handle} {s s' : Site} {p p' : Option Handle} (h1 : Event.opened h s p ∈ tr) (h2 : Event.opened h s' p' ∈ tr) : s = s' := by
  obtain ⟨O, _, _, hok⟩ := run_facts hr
  obtain ⟨a, b, hab⟩ := List.append_of_mem h1
  rw [hab, List.mem_append, List.mem_cons] at h2
  rcases h2 with h2 | h2 | h2
  · exact absurd h2 ((hok a _ b hab).2.2 _ _)
  · cases h2; rfl
  · obtain ⟨x, y, hxy⟩ := List.append_of_mem h2
    exact absurd (by simp) ((hok (a ++ .opened h s p :: x) (.opened h s' p') y (by rw [hab, hxy]; simp)).2.2 s p)

/-- C141: in every run, whatever fails: if the function returns an error, something has failed other than the closing of files whose
closing may fail unnoticed; and if it returns none, nothing has, unless layers are compared: then their reading may have failed -/
theorem C141_noticed_partial (c : Call) (tr : List Event) (fs : List Fault) (ok : Bool) (m : Nat) (hr : Runs (code c) 0 tr fs ok m) :
    (ok = false → ∃ f ∈ fs, ¬ Unnoticed c tr f) ∧ (ok = true → ∀ f ∈ fs, Unnoticed c tr f ∨ Comparing c tr f) := by
  -- where each was opened
  have : ∀ h, ∃ s, ∀ s' p, Event.opened h s' p ∈ tr → s = s' := by
    intro h
    rcases Classical.em (∃ s p, Event.opened h s p ∈ tr) with ⟨s, p, hs⟩ | hn
    · exact ⟨s, fun s' p' hs' => opened_once hr hs hs'⟩
    · exact ⟨.wheel, fun s' p' hs' => absurd ⟨s', p', hs'⟩ hn⟩
  obtain ⟨σ, hσ⟩ : ∃ σ : Handle → Site, ∀ h s p, Event.opened h s p ∈ tr → σ h = s :=
    ⟨fun h => (this h).choose, fun h s p hm => (this h).choose_spec s p hm⟩
  have hwp := keeps_code c [] 0 (fun x hx => by cases hx) (fun h hh => by cases hh)
  obtain ⟨c', d', h1, h2, h3⟩ := hon_sound hr true true _ hσ (honest_code σ c true)
  constructor
  · intro hok
    refine Classical.byContradiction fun hno => ?_
    have : c' = true := h2.mpr ⟨rfl, fun f hf => ?_⟩
    · rw [h1.2 hok] at this; cases this
    · obtain ⟨h, s, p, rfl, ho, hi⟩ : Unnoticed c tr f := Classical.byContradiction fun hn => hno ⟨f, hf, hn⟩
      exact ⟨h, rfl, by rw [hσ h s p ho]; exact hi⟩
  · intro hok f hf
    rcases (h3.mp (h1.1 hok)).2 f hf with ⟨h, rfl, hi⟩ | ⟨h, rfl, hi⟩
    · obtain ⟨s, p, ho⟩ := opened_of_lt hr h (Nat.zero_le _) ((faults_lt hr [] _ hwp (fun x hx => nomatch hx)).1 h hf)
      exact .inl ⟨h, s, p, rfl, ho, by rw [← hσ h s p ho]; exact hi⟩
    · obtain ⟨s, p, ho⟩ := opened_of_lt hr h (Nat.zero_le _) ((faults_lt hr [] _ hwp (fun x hx => nomatch hx)).2 h hf)
      rw [passed, Bool.and_eq_true, decide_eq_true_eq, hσ h s p ho] at hi
      rw [hi.2] at ho
      exact .inr ⟨hi.1, h, p, rfl, ho⟩

/-- C141: so a function that compares no layers returns no error if and only if nothing else has failed -/
theorem C141_iff_partial (c : Call) (hc : compares c = false) (tr : List Event) (fs : List Fault) (ok : Bool) (m : Nat)
    (hr : Runs (code c) 0 tr fs ok m) : ok = true ↔ ∀ f ∈ fs, Unnoticed c tr f := by
  obtain ⟨h1, h2⟩ := C141_noticed_partial c tr fs ok m hr
  constructor
  · intro hok f hf
    rcases h2 hok f hf with h | h
    · exact h
    · have := h.1; rw [hc] at this; cases this
  · intro hall
    cases ok with
    | true => rfl
    | false => obtain ⟨f, hf, hn⟩ := h1 rfl; exact absurd (hall f hf) hn

/-- C141: what is written is known to have been written: when no error is returned, no opening, check or other call has failed, no
reading or writing but the reading of layers that are compared, and no closing of a file that was written -/
theorem C141_written (c : Call) (tr : List Event) (fs : List Fault) (m : Nat) (hr : Runs (code c) 0 tr fs true m) :
    (∀ s, Fault.opening s ∉ fs) ∧ Fault.other ∉ fs ∧
    (∀ h s p, Event.opened h s p ∈ tr → s ≠ .compared → Fault.using h ∉ fs) ∧
    ∀ h s p, Event.opened h s p ∈ tr → s = .output ∨ s = .saved ∨ s = .pyOut → Fault.closing h ∉ fs := by
  have key := (C141_noticed_partial c tr fs true m hr).2 rfl
  refine ⟨fun s hm => ?_, fun hm => ?_, fun h s p ho hs hm => ?_, fun h s p ho hs hm => ?_⟩
  · rcases key _ hm with ⟨h, s, p, he, _⟩ | ⟨_, h, p, he, _⟩ <;> cases he
  · rcases key _ hm with ⟨h, s, p, he, _⟩ | ⟨_, h, p, he, _⟩ <;> cases he
  · rcases key _ hm with ⟨h, s, p, he, _⟩ | ⟨_, h, p, he, ho'⟩
    · cases he
    · cases he; exact hs (opened_once hr ho ho')
  · rcases key _ hm with ⟨h', s', p', he, ho', hu⟩ | ⟨_, h, p, he, _⟩
    · cases he
      have hss := opened_once hr ho ho'
      subst hss
      rcases hs with rfl | rfl | rfl <;> cases c <;> cases hu
    · cases he

/-- C141 does not hold of the comparison, nor of `ocibuild layer gobuild --output`: the layer that was there before may end in the
midst of a file's content, and no error is returned.  Here the two layers have the same first header and the reading of the second
one's content fails; the contents differ then. -/
theorem C141_violated : (∃ tr m, Runs (code (.layersEqual 0)) 0 tr [.using 1] true m ∧ Event.opened 1 .compared none ∈ tr) ∧
    ∃ tr m, Runs (code (.gobuildCmd true true 0)) 0 tr [.using 1] true m ∧ Event.opened 1 .compared none ∈ tr := by
  constructor
  · have h1 := runWith_runs (code (.layersEqual 0)) [true, true, true, true, false, true, false] 0
    have h2 : (runWith (code (.layersEqual 0)) [true, true, true, true, false, true, false] 0).2.1 = [.using 1] := by decide +kernel
    have h3 : (runWith (code (.layersEqual 0)) [true, true, true, true, false, true, false] 0).2.2.1 = true := by decide +kernel
    rw [h2, h3] at h1
    exact ⟨_, _, h1, by decide +kernel⟩
  · let bs := [true, true, true, true, true, true, false, true, false, true, true, true, true, false]
    have h1 := runWith_runs (code (.gobuildCmd true true 0)) bs 0
    have h2 : (runWith (code (.gobuildCmd true true 0)) bs 0).2.1 = [.using 1] := by decide +kernel
    have h3 : (runWith (code (.gobuildCmd true true 0)) bs 0).2.2.1 = true := by decide +kernel
    rw [h2, h3] at h1
    exact ⟨_, _, h1, by decide +kernel⟩

/-! ### there are such runs -/

/-- closing the output fails, and that is the result -/
example : (runWith (code (.gobuildCmd true false 0)) [true, true, true, true, true, true, true, false] 0) =
    ([.opened 0 .output none, .opened 1 .layer none, .used 1, .used 0, .closed 1, .closed 0], [.closing 0], false, 2) := by decide +kernel

/-- closing a layer that is loaded fails, and that is not -/
example : (runWith (code (.load [0, 1])) [true, true, false] 0) =
    ([.opened 0 .layer none, .used 0, .closed 0, .opened 1 .layer none, .used 1, .used 1, .used 1, .closed 1], [.closing 0], true, 2) := by
  decide +kernel

/-- an installation in which a file cannot be checked: the others still are, and the error is returned -/
example : (runWith (code (.installWheel exInstall)) [true, true, true, true, true, true, true, false] 0).2.1 = [.opening .checked] ∧
    (runWith (code (.installWheel exInstall)) [true, true, true, true, true, true, true, false] 0).2.2.1 = false ∧
    Event.opened 2 .checked (some 0) ∈ (runWith (code (.installWheel exInstall)) [true, true, true, true, true, true, true, false] 0).1 := by
  decide +kernel

end Handles
