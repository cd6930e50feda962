import Verif.Cli.Docker
import Verif.Pep440.PropsOrder
/-! C102: an image in Docker for the time of a call. -/
namespace Cli
open Go

/-! ### specification -/

/-- `docker image load`: when it succeeds the image is there under its tag; it changes nothing under other tags, and an
incomplete archive never gives an image -/
structure Spec.Loads {ι : Type} (e : DockerEnv ι) : Prop where
  there : ∀ t i d, (e.load (some (t, i)) d).2 = true → (e.load (some (t, i)) d).1 t = some i
  others : ∀ t i d u, u ≠ t → (e.load (some (t, i)) d).1 u = d u
  incomplete : ∀ d, (e.load none d).1 = d

/-- `docker image rm`: when it succeeds there is no image under the tag, and it changes nothing under other tags -/
structure Spec.Rms {ι : Type} (e : DockerEnv ι) : Prop where
  gone : ∀ t d, (e.rm t d).2 = true → (e.rm t d).1 t = none
  others : ∀ t d u, u ≠ t → (e.rm t d).1 u = d u

/-- the calls of `fn` among the events: with which tag, and the images at that time -/
def Spec.calls {ι : Type} : List (DockerEvent ι) → List (Str × Daemon ι)
  | [] => []
  | .called t d :: es => (t, d) :: Spec.calls es
  | _ :: es => Spec.calls es

/-- everything up to the call of `fn` works -/
def Spec.Loadable {ι : Type} (e : DockerEnv ι) (tag : Str) (img : ι) (d : Daemon ι) : Prop :=
  e.validTag tag = true ∧ e.pipe = true ∧ e.start = true ∧ e.write = true ∧ e.close = true ∧ (e.load (some (tag, img)) d).2 = true

/-! ### the cases -/

theorem cleanup_calls {ι : Type} (e : DockerEnv ι) (tag : Str) (o : DockerOut ι) :
    Spec.calls (dockerCleanup e tag o).events = Spec.calls o.events := by
  unfold dockerCleanup
  split
  · rfl
  · show Spec.calls (o.events ++ [.removed tag]) = _
    generalize o.events = l
    induction l with
    | nil => rfl
    | cons a l ih => cases a <;> simp [Spec.calls, ih]

/-- before the deferred function: either `fn` was not called, the result is an error and only `docker image load` can have
changed something; or the image was loaded and `fn` called -/
theorem withImage_cases {ι : Type} (e : DockerEnv ι) (imgname : Str) (img : ι) (fn : Str → Daemon ι → Daemon ι × Bool) (d : Daemon ι) :
    let tag := tagText imgname e.pid e.nanos
    (e.validTag tag = false ∧ withImage e imgname img fn d = ⟨d, [], false⟩) ∨
    (e.validTag tag = true ∧ ∃ o, withImage e imgname img fn d = dockerCleanup e tag o ∧
      ((¬ Spec.Loadable e tag img d ∧ Spec.calls o.events = [] ∧ o.ok = false ∧
          (o.images = d ∨ o.images = (e.load none d).1 ∨ o.images = (e.load (some (tag, img)) d).1)) ∨
       (Spec.Loadable e tag img d ∧ Spec.calls o.events = [(tag, (e.load (some (tag, img)) d).1)] ∧
          o.ok = (fn tag (e.load (some (tag, img)) d).1).2 ∧ o.images = (fn tag (e.load (some (tag, img)) d).1).1))) := by
  unfold withImage Spec.Loadable
  generalize tagText imgname e.pid e.nanos = tag
  simp only
  cases hv : e.validTag tag with
  | false => left; exact ⟨rfl, by simp⟩
  | true =>
    right
    refine ⟨rfl, ?_⟩
    cases hp : e.pipe with
    | false => exact ⟨⟨d, [], false⟩, by simp, Or.inl ⟨by simp, rfl, rfl, Or.inl rfl⟩⟩
    | true =>
      cases hs : e.start with
      | false => exact ⟨⟨d, [], false⟩, by simp, Or.inl ⟨by simp, rfl, rfl, Or.inl rfl⟩⟩
      | true =>
        cases hw : e.write with
        | false => exact ⟨⟨(e.load none d).1, [.loaded none], false⟩, by simp, Or.inl ⟨by simp, rfl, rfl, Or.inr (Or.inl rfl)⟩⟩
        | true =>
          cases hc : e.close with
          | false =>
            exact ⟨⟨(e.load (some (tag, img)) d).1, [.loaded (some (tag, img))], false⟩, by simp,
              Or.inl ⟨by simp, rfl, rfl, Or.inr (Or.inr rfl)⟩⟩
          | true =>
            cases hl : (e.load (some (tag, img)) d).2 with
            | false =>
              exact ⟨⟨(e.load (some (tag, img)) d).1, [.loaded (some (tag, img))], false⟩, by simp,
                Or.inl ⟨by simp, rfl, rfl, Or.inr (Or.inr rfl)⟩⟩
            | true =>
              exact ⟨⟨(fn tag (e.load (some (tag, img)) d).1).1, [.loaded (some (tag, img)), .called tag (e.load (some (tag, img)) d).1],
                (fn tag (e.load (some (tag, img)) d).1).2⟩, by simp, Or.inr ⟨by simp, rfl, rfl, rfl⟩⟩

/-! ### the theorems -/

/-- **C102**, the call: `fn` is called exactly if the image could be loaded; then it is called once, with the new tag, and at
that time Docker has the image under this tag -/
theorem C102_called {ι : Type} {e : DockerEnv ι} (hl : Spec.Loads e) (imgname : Str) (img : ι) (fn : Str → Daemon ι → Daemon ι × Bool)
    (d : Daemon ι) :
    let tag := tagText imgname e.pid e.nanos
    (Spec.Loadable e tag img d ∧ ∃ images, Spec.calls (withImage e imgname img fn d).events = [(tag, images)] ∧ images tag = some img) ∨
    (¬ Spec.Loadable e tag img d ∧ Spec.calls (withImage e imgname img fn d).events = []) := by
  intro tag
  rcases withImage_cases e imgname img fn d with ⟨h1, h2⟩ | ⟨h1, o, h2, h3⟩
  · right
    rw [h2]
    exact ⟨fun h => absurd h.1 (by rw [h1]; exact Bool.false_ne_true), rfl⟩
  · rw [h2, cleanup_calls]
    rcases h3 with ⟨a, b, _⟩ | ⟨a, b, _⟩
    · exact Or.inr ⟨a, b⟩
    · exact Or.inl ⟨a, _, b, hl.there _ _ _ a.2.2.2.2.2⟩

/-- **C102**, the result: nil is returned exactly if the image could be loaded, `fn` returned nil, and the image could be
removed -/
theorem C102_result {ι : Type} (e : DockerEnv ι) (imgname : Str) (img : ι) (fn : Str → Daemon ι → Daemon ι × Bool) (d : Daemon ι) :
    let tag := tagText imgname e.pid e.nanos
    let d1 := (e.load (some (tag, img)) d).1
    (withImage e imgname img fn d).ok = true ↔
      Spec.Loadable e tag img d ∧ (fn tag d1).2 = true ∧ e.cancelled = false ∧ (e.rm tag (fn tag d1).1).2 = true := by
  intro tag d1
  rcases withImage_cases e imgname img fn d with ⟨h1, h2⟩ | ⟨h1, o, h2, h3⟩
  · rw [h2]
    exact ⟨fun h => absurd h Bool.false_ne_true, fun h => absurd h.1.1 (by rw [h1]; exact Bool.false_ne_true)⟩
  · rw [h2]
    unfold dockerCleanup
    rcases h3 with ⟨a, _, b, _⟩ | ⟨a, _, b, c⟩
    · constructor
      · intro h
        split at h
        · cases h
        · simp [b] at h
      · intro h; exact absurd h.1 a
    · cases hc : e.cancelled with
      | true => simp
      | false =>
        rw [if_neg (by simp)]
        simp only [b, c, Bool.and_eq_true]
        exact ⟨fun h => ⟨a, h.1, trivial, h.2⟩, fun h => ⟨h.2.1, h.2.2.2⟩⟩

/-- **C102**, part: if the context is not cancelled, then whatever fails, `docker image rm` is run at the end, and if it
succeeds there is no image under the tag any more.  Missing: cancelled contexts (`C102_violated`). -/
theorem C102_removed_partial {ι : Type} {e : DockerEnv ι} (hr : Spec.Rms e) (hc : e.cancelled = false) (imgname : Str) (img : ι)
    (fn : Str → Daemon ι → Daemon ι × Bool) (d : Daemon ι) (hrm : ∀ d, (e.rm (tagText imgname e.pid e.nanos) d).2 = true)
    (hv : e.validTag (tagText imgname e.pid e.nanos) = true) :
    (withImage e imgname img fn d).images (tagText imgname e.pid e.nanos) = none ∧
    ∃ es, (withImage e imgname img fn d).events = es ++ [.removed (tagText imgname e.pid e.nanos)] := by
  rcases withImage_cases e imgname img fn d with ⟨h1, _⟩ | ⟨h1, o, h2, h3⟩
  · rw [hv] at h1; cases h1
  · rw [h2]
    unfold dockerCleanup
    rw [hc, if_neg (by simp)]
    exact ⟨hr.gone _ _ (hrm _), _, rfl⟩

/-- **C102**, other images: under every other tag there is what there was, if `fn` leaves it alone -/
theorem C102_others {ι : Type} {e : DockerEnv ι} (hl : Spec.Loads e) (hr : Spec.Rms e) (imgname : Str) (img : ι)
    (fn : Str → Daemon ι → Daemon ι × Bool) (d : Daemon ι) {u : Str} (hu : u ≠ tagText imgname e.pid e.nanos)
    (hfn : ∀ t d, (fn t d).1 u = d u) : (withImage e imgname img fn d).images u = d u := by
  rcases withImage_cases e imgname img fn d with ⟨h1, h2⟩ | ⟨h1, o, h2, h3⟩
  · rw [h2]
  · have ho : o.images u = d u := by
      rcases h3 with ⟨_, _, _, h | h | h⟩ | ⟨_, _, _, h⟩
      · rw [h]
      · rw [h, hl.incomplete]
      · rw [h, hl.others _ _ _ _ hu]
      · rw [h, hfn, hl.others _ _ _ _ hu]
    rw [h2]
    unfold dockerCleanup
    split
    · exact ho
    · show (e.rm _ o.images).1 u = _
      rw [hr.others _ _ _ hu, ho]

/-- **C102**, a failure to remove the image is reported: when there is an image under the tag in the end, and there was none
before, there is an error -/
theorem C102_reported {ι : Type} {e : DockerEnv ι} (hr : Spec.Rms e) (imgname : Str) (img : ι)
    (fn : Str → Daemon ι → Daemon ι × Bool) (d : Daemon ι)
    (h : (withImage e imgname img fn d).images (tagText imgname e.pid e.nanos) ≠ none) :
    (withImage e imgname img fn d).ok = false := by
  cases hok : (withImage e imgname img fn d).ok with
  | false => rfl
  | true =>
    exfalso
    obtain ⟨a, _, c, b⟩ := (C102_result e imgname img fn d).mp hok
    apply h
    rcases withImage_cases e imgname img fn d with ⟨h1, _⟩ | ⟨h1, o, h2, h3⟩
    · have := a.1
      rw [h1] at this; cases this
    · rcases h3 with ⟨x, _⟩ | ⟨_, _, _, y⟩
      · exact absurd a x
      · rw [h2]
        unfold dockerCleanup
        rw [c, if_neg (by simp)]
        show (e.rm _ o.images).1 _ = none
        rw [y]
        exact hr.gone _ _ b

/-- **C102**, the tags: calls with different names, in different processes or at different times use different tags -/
theorem C102_tags {a b : Str} {p q n k : Int} (ha : ':' ∉ a) (hb : ':' ∉ b) (h : tagText a p n = tagText b q k) :
    a = b ∧ p = q ∧ n = k := by
  unfold tagText at h
  rw [List.append_assoc, List.append_assoc, List.append_assoc, List.append_assoc] at h
  have h := List.append_cancel_left h
  simp only [List.cons_append] at h
  obtain ⟨h1, h2⟩ := Pep440.append_inj_sep ha hb (Or.inr ⟨_, rfl⟩) (Or.inr ⟨_, rfl⟩) h
  have h2 := (List.cons.inj h2).2
  obtain ⟨h3, h4⟩ := Pep440.append_inj_sep (Pep440.itoa_no_dot p) (Pep440.itoa_no_dot q) (Or.inr ⟨_, rfl⟩) (Or.inr ⟨_, rfl⟩) h2
  exact ⟨h1, Pep440.itoa_inj h3, Pep440.itoa_inj (List.cons.inj h4).2⟩

/-! ### examples, and the counterexample -/

/-- a working Docker; `cancelled` as given -/
def exDocker (cancelled : Bool) : DockerEnv Nat where
  pid := 42
  nanos := 1700000000000000000
  validTag := fun _ => true
  pipe := true
  start := true
  write := true
  close := true
  load := fun a d => match a with
    | none => (d, false)
    | some (t, i) => (fun u => if u = t then some i else d u, true)
  rm := fun t d => (fun u => if u = t then none else d u, (d t).isSome)
  cancelled := cancelled

theorem exDocker_loads (c : Bool) : Spec.Loads (exDocker c) :=
  ⟨fun _ _ _ _ => if_pos rfl, fun _ _ _ _ h => if_neg h, fun _ => rfl⟩

theorem exDocker_rms (c : Bool) : Spec.Rms (exDocker c) := ⟨fun _ _ _ => if_pos rfl, fun _ _ _ h => if_neg h⟩

example : tagText "squash-test".toList 42 1700000000000000000 = "ocibuild.local/squash-test:42.1700000000000000000".toList := by
  decide +kernel

example : (withImage (exDocker false) "x".toList 7 (fun t d => (d, d t == some 7)) (fun _ => none)).ok = true := by decide +kernel

/-- **C102 does not hold** in full: if the context is cancelled while `fn` runs — the user presses Ctrl-C during `docker run` —
the image stays in Docker for good, since `docker image rm` is run with the same context -/
theorem C102_violated : ∃ (e : DockerEnv Nat) (fn : Str → Daemon Nat → Daemon Nat × Bool), Spec.Loads e ∧ Spec.Rms e ∧ e.cancelled = true ∧
    (withImage e "python-inspect".toList 7 fn (fun _ => none)).images (tagText "python-inspect".toList e.pid e.nanos) = some 7 :=
  ⟨exDocker true, fun _ d => (d, false), exDocker_loads _, exDocker_rms _, rfl, by decide +kernel⟩

end Cli
