import Verif.Fsutil.HandlesLemmas
/-! C132: what is opened is closed, and read only while it and the archive it comes from are open. -/
namespace Handles
open Spec

theorem run_facts {c : Call} {n m : Nat} {tr : List Event} {fs : List Fault} {ok : Bool} (hr : Runs (code c) n tr fs ok m) :
    ∃ O, Left c.scripts [] n O m ∧ Rep tr O ∧ ∀ x e y, tr = x ++ e :: y → OkEvent x e := by
  obtain ⟨O, h1, h2, h3⟩ := wp_sound hr [] _ [] (keeps_code c [] n (fun x hx => by cases hx) (fun h hh => by cases hh))
    (by intro h s p; simp) (by intro h; simp)
  exact ⟨O, h1, by simpa using h2, by simpa using h3⟩

theorem closed_after {tr : List Event} (hok : ∀ x e y, tr = x ++ e :: y → OkEvent x e) {pre post : List Event} {h : Handle} {s : Site}
    {p : Option Handle} (htr : tr = pre ++ .opened h s p :: post) (hc : Event.closed h ∈ tr) : Event.closed h ∈ post := by
  have := (hok pre _ post htr).2.1
  rw [htr, List.mem_append, List.mem_cons] at hc
  rcases hc with hc | hc | hc
  · exact absurd hc this
  · cases hc
  · exact hc

/-- C132: in every run of every function, whatever fails, each handle that is opened is closed afterwards; but for
entry_points.txt -/
theorem C132_closed_partial (c : Call) (n m : Nat) (tr : List Event) (fs : List Fault) (ok : Bool) (hr : Runs (code c) n tr fs ok m)
    (pre post : List Event) (h : Handle) (s : Site) (p : Option Handle) (htr : tr = pre ++ .opened h s p :: post)
    (hs : s ≠ .entryPoints ∨ c.scripts = false) : Event.closed h ∈ post := by
  obtain ⟨O, ⟨_, L, h1, h2, h3⟩, hrep, hok⟩ := run_facts hr
  refine closed_after hok htr ?_
  refine Classical.byContradiction fun hc => ?_
  have hm := (hrep h s p).mpr ⟨by rw [htr]; simp, hc⟩
  rw [h1, List.append_nil] at hm
  rcases hs with hs | hs
  · exact hs (h2 _ hm).1
  · rw [h3 hs] at hm; cases hm

/-- C132: a handle is read only after it was opened and before it is closed, and so is the archive it was opened in; nothing is
opened in an archive that is not open -/
theorem C132_used (c : Call) (n m : Nat) (tr : List Event) (fs : List Fault) (ok : Bool) (hr : Runs (code c) n tr fs ok m) (pre post : List Event) :
    (∀ h, tr = pre ++ .used h :: post → OpenAt pre h ∧ ∀ s z, Event.opened h s (some z) ∈ pre → OpenAt pre z) ∧
    (∀ h s z, tr = pre ++ .opened h s (some z) :: post → OpenAt pre z) := by
  obtain ⟨O, _, _, hok⟩ := run_facts hr
  refine ⟨fun h htr => ?_, fun h s z htr => (hok pre _ post htr).1 z rfl⟩
  obtain ⟨s, p, h1, h2, h3⟩ := hok pre _ post htr
  refine ⟨⟨⟨s, p, h1⟩, h2⟩, fun s' z h4 => ?_⟩
  -- a handle is opened once
  obtain ⟨a, b, hab⟩ := List.append_of_mem h1
  have hnew := (hok a (.opened h s p) (b ++ .used h :: post) (by rw [htr, hab]; simp)).2.2
  rw [hab, List.mem_append, List.mem_cons] at h4
  rcases h4 with h4 | h4 | h4
  · exact absurd h4 (hnew _ _)
  · cases h4; exact h3 z rfl
  · obtain ⟨x, y, hxy⟩ := List.append_of_mem h4
    have := (hok (a ++ .opened h s p :: x) (.opened h s' (some z)) (y ++ .used h :: post) (by rw [htr, hab, hxy]; simp)).2.2 s p
    exact absurd (by simp) this

/-- C132: installing a wheel never closes the entry_points.txt it has opened -/
theorem C132_violated (w : Install) (n m : Nat) (tr : List Event) (fs : List Fault) (ok : Bool) (hr : Runs (installWheel w) n tr fs ok m)
    (h : Handle) (p : Option Handle) (ho : Event.opened h .entryPoints p ∈ tr) : Event.closed h ∉ tr := by
  obtain ⟨O, _, _, hok⟩ := run_facts (c := .installWheel w) hr
  intro hc
  -- the first close of the handle
  obtain ⟨x, y, hxy, hx⟩ : ∃ x y, tr = x ++ .closed h :: y ∧ Event.closed h ∉ x := List.eq_append_cons_of_mem hc
  rcases hok x _ y hxy with h1 | h1
  · exact hx h1
  · rw [hxy, List.mem_append, List.mem_cons] at ho
    rcases ho with ho | ho | ho
    · exact h1 _ _ ho rfl
    · cases ho
    · obtain ⟨a, b, hab⟩ := List.append_of_mem ho
      have := (hok (x ++ .closed h :: a) (.opened h .entryPoints p) b (by rw [hxy, hab]; simp)).2.1
      exact this (by simp)

/-! ### there are such runs -/

/-- the run in which the calls give these answers (those beyond them succeed): what is seen, what fails, the result -/
def runWith {α : Type} : Prog α → List Bool → Nat → List Event × List Fault × α × Nat
  | .ret a, _, n => ([], [], a, n)
  | .either k, bs, n => runWith (k (bs.headD true)) bs.tail n
  | .call k, bs, n =>
    let r := runWith (k (bs.headD true)) bs.tail n
    (r.1, (if bs.headD true then [] else [.other]) ++ r.2.1, r.2.2)
  | .open s p k, bs, n =>
    if bs.headD true then
      let r := runWith (k (some n)) bs.tail (n + 1)
      (.opened n s p :: r.1, r.2)
    else
      let r := runWith (k none) bs.tail n
      (r.1, .opening s :: r.2.1, r.2.2)
  | .use h k, bs, n =>
    let r := runWith (k (bs.headD true)) bs.tail n
    (.used h :: r.1, (if bs.headD true then [] else [.using h]) ++ r.2.1, r.2.2)
  | .close h k, bs, n =>
    let r := runWith (k (bs.headD true)) bs.tail n
    (.closed h :: r.1, (if bs.headD true then [] else [.closing h]) ++ r.2.1, r.2.2)

theorem runWith_runs {α : Type} (P : Prog α) : ∀ (bs : List Bool) (n : Nat),
    Runs P n (runWith P bs n).1 (runWith P bs n).2.1 (runWith P bs n).2.2.1 (runWith P bs n).2.2.2 := by
  induction P with
  | ret a => intro bs n; exact .ret
  | either k ih => intro bs n; exact .either _ (ih _ _ _)
  | call k ih => intro bs n; exact .call _ (ih _ _ _)
  | «open» s p k ih =>
    intro bs n
    rw [runWith]
    split
    · exact .openOk (ih _ _ _)
    · exact .openFail (ih _ _ _)
  | use h k ih => intro bs n; exact .use _ (ih _ _ _)
  | close h k ih => intro bs n; exact .close _ (ih _ _ _)

/-- a wheel with a file entry_points.txt -/
def exInstall : Install :=
  { rows := 2, scripts := 1, srcs := 1, config := true, recorded := [true, false], files := [(true, true), (false, false), (true, false)] }

/-- a successful installation of it, in which the file stays open -/
theorem C132_witness : ∃ (tr : List Event) (m : Nat) (h : Handle), Runs (installWheel exInstall) 0 tr [] true m ∧
    Event.opened h .entryPoints (some 0) ∈ tr ∧ Event.closed h ∉ tr := by
  let bs : List Bool := []
  have h1 := runWith_runs (installWheel exInstall) bs 0
  have h2 : (runWith (installWheel exInstall) bs 0).2.1 = [] := by decide +kernel
  have h3 : (runWith (installWheel exInstall) bs 0).2.2.1 = true := by decide +kernel
  rw [h2, h3] at h1
  exact ⟨_, _, 9, h1, by decide +kernel, by decide +kernel⟩

/-- one that ends with an error of the copying of a source, both of whose files are closed, one of them twice -/
example : (runWith (pyWriteFile none) [true, true, true, true, true, false] 3).1 =
    [.opened 3 .pyOut none, .opened 4 .pyIn none, .used 4, .used 3, .closed 3, .closed 4, .closed 3] := by decide +kernel

/-- comparing two layers, the second of which cannot be opened -/
example : (runWith (code (.layersEqual 3)) [true, false] 0) = ([.opened 0 .compared none, .closed 0], [.opening .compared], false, 1) := by decide +kernel

end Handles
