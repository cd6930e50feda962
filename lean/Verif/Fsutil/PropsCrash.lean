import Verif.Fsutil.CrashLemmas
/-! C136: runs of `layer gobuild --output` that are interrupted, and the runs after them. -/
namespace Fsutil.Crash
open Go _root_.Fsutil.Crash.Spec

theorem bare_of_same {xs ys : List (Hdr × Bytes)} (h : Same xs ys) (ct : Int) (hx : ∀ e ∈ xs, e.1.changeTime = ct)
    (hy : ∀ e ∈ ys, e.1.changeTime = ct) : xs.map bare = ys.map bare := by
  let put : Hdr × Bytes → Hdr × Bytes := fun p => ({ p.1 with changeTime := ct }, p.2)
  have key : ∀ l : List (Hdr × Bytes), (∀ e ∈ l, e.1.changeTime = ct) →
      l.map bare = (l.map fun e => (Fsutil.Spec.timeless e.1, e.2)).map put := by
    intro l hl
    rw [List.map_map]
    apply List.map_congr_left
    intro e he
    simp [bare, put, Fsutil.Spec.timeless, ← hl e he]
  rw [key xs hx, key ys hy, h]

/-- **C136**: whatever happens in any number of runs, with programs that may be others each time: the file is as it was before the first, or
it is absent, or it is the beginning of the layer that one of the runs built (the whole of it included) -/
theorem C136_history {cd : Codec} {f g : Option Bytes} {rs : List (List (Hdr × Bytes) × Ending)} (h : History cd f rs g) :
    g = f ∨ g = none ∨ ∃ new r k, (new, r) ∈ rs ∧ g = some ((tarBytes cd new).take k) := by
  induction h with
  | nil f => exact Or.inl rfl
  | @run f g h new r rs hr _ ih =>
    rcases ih with rfl | rfl | ⟨x, r', k, hm, rfl⟩
    · cases hr with
      | early => exact Or.inl rfl
      | unread _ => exact Or.inl rfl
      | kept _ => exact Or.inl rfl
      | removed r _ _ => exact Or.inr (Or.inl rfl)
      | cut r k _ _ => exact Or.inr (Or.inr ⟨new, r, k, List.mem_cons_self, rfl⟩)
      | unremoved _ => exact Or.inl rfl
      | written _ => exact Or.inr (Or.inr ⟨new, .ok, (tarBytes cd new).length, List.mem_cons_self, by rw [List.take_length]⟩)
    · exact Or.inr (Or.inl rfl)
    · exact Or.inr (Or.inr ⟨x, r', k, List.mem_cons_of_mem _ hm, rfl⟩)

/-- **C136**: whatever is in the file: if a run exits with status 0, the file then reads as exactly the programs that the run built, but for
timestamps -/
theorem C136_success {cd : Codec} {f g : Option Bytes} {new : List (Hdr × Bytes)} (hf : Fits cd new) (h : Run cd f new .ok g) :
    ∃ bs, g = some bs ∧ (archOf cd bs).tail = .eof ∧
      (archOf cd bs).entries.map (fun e => (Fsutil.Spec.timeless e.1, Fsutil.Spec.data e.2)) =
        new.map (fun e => (Fsutil.Spec.timeless e.1, e.2)) := by
  have hfull : (new.map full).map (fun e => (Fsutil.Spec.timeless e.1, Fsutil.Spec.data e.2)) =
      new.map (fun e => (Fsutil.Spec.timeless e.1, e.2)) := by
    rw [List.map_map]
    apply List.map_congr_left
    intro e _
    simp [full, Fsutil.Spec.data]
  cases h with
  | removed _ h1 _ => exact absurd rfl h1
  | cut _ _ h1 _ => exact absurd rfl h1
  | written _ => exact ⟨_, rfl, by rw [archOf_tarBytes hf], by rw [archOf_tarBytes hf]; exact hfull⟩
  | kept hd =>
    cases f with
    | none => simp [decision, oldOf, gobuildOutput] at hd
    | some bs =>
      refine ⟨bs, rfl, ?_⟩
      rw [decision_some hf] at hd
      generalize hl : layersEqualLoop _ _ _ _ _ = r at hd
      match r, hd with
      | some (.ok true), _ =>
        obtain ⟨_, h2, h3⟩ := layersEqualLoop_true (by
          intro e he
          obtain ⟨x, hx, rfl⟩ := List.mem_map.mp he
          simpa [full, Fsutil.Spec.data] using bound_ok new x hx) hl
        exact ⟨h2, by rw [← timeless_of_eraseMA h3, hfull]⟩

/-- **C136**, part: a run that was interrupted (or failed) in writing can be repeated with the same programs exactly if what it left does
not end within a header or within one of the two blocks at the end.  If it leaves all contents the repeated run leaves the file as it is,
otherwise it writes the whole layer.  Missing: the other interruptions, see `C136_violated`; and see `C136_unfinished`. -/
theorem C136_again_partial {cd : Codec} {es new : List (Hdr × Bytes)} (he : Fits cd es) (hf : Fits cd new) (hs : Same new es) (ct : Int)
    (hcn : ∀ e ∈ new, e.1.changeTime = ct) (hce : ∀ e ∈ es, e.1.changeTime = ct) (k : Nat) :
    ((∃ g, Run cd (some ((tarBytes cd es).take k)) new .ok g) ↔ ¬ Inside es k) ∧
    ∀ g, Run cd (some ((tarBytes cd es).take k)) new .ok g →
      (Whole es k → g = some ((tarBytes cd es).take k)) ∧ (¬ Whole es k → g = some (tarBytes cd new)) := by
  obtain ⟨h1, h2, h3⟩ := cmp_same (n := (new.flatMap (·.2)).length.succ) k (bare_of_same hs ct hcn hce) (bound_ok new)
  have hd := decision_some hf ((tarBytes cd es).take k)
  rw [archOf_cut he k] at hd
  by_cases hi : Inside es k
  · obtain ⟨e, h⟩ := h1 hi
    rw [h] at hd
    have no : ∀ g, ¬ Run cd (some ((tarBytes cd es).take k)) new .ok g := by
      intro g hg
      cases hg with
      | kept h => rw [hd] at h; cases h
      | removed _ h _ => exact h rfl
      | cut _ _ h _ => exact h rfl
      | written h => rw [hd] at h; cases h
    exact ⟨⟨fun ⟨g, hg⟩ => absurd hg (no g), fun h => absurd hi h⟩, fun g hg => absurd hg (no g)⟩
  · by_cases hw : Whole es k
    · rw [h2 hi hw] at hd
      refine ⟨⟨fun _ => hi, fun _ => ⟨_, Run.kept hd⟩⟩, fun g hg => ⟨fun _ => ?_, fun h => absurd hw h⟩⟩
      cases hg with
      | kept _ => rfl
      | removed _ h _ => exact absurd rfl h
      | cut _ _ h _ => exact absurd rfl h
      | written h => rw [hd] at h; cases h
    · rw [h3 hi hw] at hd
      refine ⟨⟨fun _ => hi, fun _ => ⟨_, Run.written hd⟩⟩, fun g hg => ⟨fun h => absurd h hw, fun _ => ?_⟩⟩
      cases hg with
      | kept h => rw [hd] at h; cases h
      | removed _ h _ => exact absurd rfl h
      | cut _ _ h _ => exact absurd rfl h
      | written _ => rfl

/-- **C136**, part: after any number of runs, beginning without a file, a run can succeed, with any programs, unless one of the runs left the
file ending within a header or one of the two blocks at the end -/
theorem C136_recovers_partial {cd : Codec} {f : Option Bytes} {rs : List (List (Hdr × Bytes) × Ending)} (h : History cd none rs f)
    (hr : ∀ x ∈ rs, Fits cd x.1) (hi : ∀ x ∈ rs, ∀ k, f = some ((tarBytes cd x.1).take k) → ¬ Inside x.1 k) {new : List (Hdr × Bytes)}
    (hf : Fits cd new) : ∃ g, Run cd f new .ok g := by
  have hnone : Run cd none new .ok (some (tarBytes cd new)) := .written rfl
  rcases C136_history h with rfl | rfl | ⟨es, r, k, hm, rfl⟩
  · exact ⟨_, hnone⟩
  · exact ⟨_, hnone⟩
  · obtain ⟨b, hb⟩ := cmp_any (n := (new.flatMap (·.2)).length.succ) (xs := new) (es := es) k (fun e he => (hf e he).2.2.2.1)
      (fun e he => (hr _ hm e he).2.2.2.1) (bound_ok new) (hi _ hm k rfl)
    have hd := decision_some hf ((tarBytes cd es).take k)
    rw [archOf_cut (hr _ hm) k, hb] at hd
    cases b with
    | true => exact ⟨_, Run.kept hd⟩
    | false => exact ⟨_, Run.written hd⟩

/-- **C136 does not hold** in full: if a run is interrupted after it has written the first bytes, fewer than 512, then no run succeeds any
more, whatever it builds, and all of them leave the file as it is: it has to be removed by hand -/
theorem C136_violated {cd : Codec} {es : List (Hdr × Bytes)} (he : Fits cd es) (k : Nat) (h0 : 0 < k) (h1 : k < 512) :
    Run cd none es .interrupted (some ((tarBytes cd es).take k)) ∧
    ∀ rs g, (∀ x ∈ rs, Fits cd x.1) → History cd (some ((tarBytes cd es).take k)) rs g →
      g = some ((tarBytes cd es).take k) ∧ ∀ x ∈ rs, x.2 ≠ .ok := by
  refine ⟨.cut _ k (by simp) rfl, ?_⟩
  have cutk : cutArch es k = ⟨[], .unexpectedEOF⟩ := by
    cases es with
    | nil => simp only [cutArch]; rw [if_neg (by omega)]
    | cons e es => rw [cutArch, if_neg (by omega), if_pos h1]
  have hd : ∀ new, Fits cd new → decision cd (some ((tarBytes cd es).take k)) new = some .failed := by
    intro new hn
    rw [decision_some hn, archOf_cut he k, cutk]
    cases new <;> simp [layersEqualLoop]
  intro rs
  induction rs with
  | nil => intro g _ h; cases h; exact ⟨rfl, by simp⟩
  | cons x rs ih =>
    intro g hr h
    cases h with
    | @run _ g' _ new r _ hrun hh =>
      have hx := hd new (hr _ List.mem_cons_self)
      have : g' = some ((tarBytes cd es).take k) ∧ r ≠ .ok := by
        cases hrun with
        | early => exact ⟨rfl, by simp⟩
        | unread _ => exact ⟨rfl, by simp⟩
        | kept h => rw [hx] at h; cases h
        | removed _ _ h => rw [hx] at h; cases h
        | cut _ _ _ h => rw [hx] at h; cases h
        | unremoved h => rw [hx] at h; cases h
        | written h => rw [hx] at h; cases h
      obtain ⟨rfl, hne⟩ := this
      obtain ⟨i1, i2⟩ := ih g (fun y hy => hr y (List.mem_cons_of_mem _ hy)) hh
      refine ⟨i1, fun y hy => ?_⟩
      rcases List.mem_cons.mp hy with rfl | hy
      · exact hne
      · exact i2 y hy

/-- … and if a run is interrupted before it has written the end of the archive, the runs after it exit with status 0 and never write it -/
theorem C136_unfinished {cd : Codec} {es : List (Hdr × Bytes)} (he : Fits cd es) (ct : Int) (hc : ∀ e ∈ es, e.1.changeTime = ct) :
    ∃ f, f ++ zeros 1024 = tarBytes cd es ∧ Run cd none es .interrupted (some f) ∧ Run cd (some f) es .ok (some f) ∧
      ∀ g, Run cd (some f) es .ok g → g = some f := by
  have hk : (es.flatMap (entryBytes cd)).length = start es es.length := by
    have h1 := tarBytes_length he
    rw [start, List.take_length]
    simp only [tarBytes, List.length_append, zeros_length, blockSize] at h1
    omega
  have htake : (tarBytes cd es).take (start es es.length) = es.flatMap (entryBytes cd) := by
    rw [tarBytes, List.take_append_of_le_length (by omega), List.take_of_length_le (by omega)]
  have key : ∀ (l : List (Hdr × Bytes)), ¬ Inside l (start l l.length) ∧ Whole l (start l l.length) := by
    intro l
    induction l with
    | nil => exact ⟨by rw [List.length_nil, start_zero, inside_nil]; omega, whole_nil _⟩
    | cons e l ih =>
      rw [List.length_cons, start_cons, inside_cons, whole_cons]
      have : 512 + e.2.length ≤ room e := by unfold room; omega
      rw [show room e + start l l.length - room e = start l l.length by omega]
      exact ⟨fun h => h.elim (by omega) (fun h => ih.1 h.2), by omega, ih.2⟩
  obtain ⟨hi, hw⟩ := key es
  obtain ⟨h1, h2⟩ := C136_again_partial he he rfl ct hc hc (start es es.length)
  rw [htake] at h1 h2
  obtain ⟨g, hg⟩ := h1.mpr hi
  have := (h2 g hg).1 hw
  subst this
  exact ⟨_, rfl, by have := Run.cut (cd := cd) (old := none) (new := es) .interrupted (start es es.length) (by simp) rfl; rwa [htake] at this,
    hg, fun g hg => (h2 g hg).1 hw⟩

/-! ### Examples -/

def exHdr (name : Str) (typeflag : Char) (size : Int) (time : Int) : Hdr := ⟨name, typeflag, [], size, 0o755, 0, 0, [], [], time, 0, 0, [], []⟩

/-- a way of writing some headers into a block: type, size, time and name, one byte each -/
def exCodec : Codec where
  enc h := (UInt8.ofNat h.typeflag.toNat :: UInt8.ofNat h.size.toNat :: UInt8.ofNat h.modTime.toNat ::
    h.name.map (fun c => UInt8.ofNat c.toNat)) ++ zeros (509 - h.name.length)
  dec b := match b with
    | t :: s :: m :: n => some (exHdr ((n.takeWhile (· ≠ 0)).map fun x => Char.ofNat x.toNat) (Char.ofNat t.toNat) s.toNat m.toNat)
    | _ => none

/-- a directory and a program -/
def exLayer (time : Int) : List (Hdr × Bytes) := [(exHdr "bin".toList '5' 0 time, []), (exHdr "bin/x".toList '0' 3 time, [7, 8, 9])]

theorem exFits (time : Nat) (ht : time < 256) : Fits exCodec (exLayer time) := by
  have : ∀ t : Fin 256, Fits exCodec (exLayer (t.val : Int)) := by unfold Fits; decide +kernel
  exact this ⟨time, ht⟩

/-- interrupted within the content: repeating the command writes the layer; within the padding or just before the end: it leaves the file;
within the second header, or the end: it fails -/
example : decision exCodec (some ((tarBytes exCodec (exLayer 1)).take 1026)) (exLayer 2) = some .written ∧
    decision exCodec (some ((tarBytes exCodec (exLayer 1)).take 1030)) (exLayer 2) = some .kept ∧
    decision exCodec (some ((tarBytes exCodec (exLayer 1)).take 1536)) (exLayer 2) = some .kept ∧
    decision exCodec (some ((tarBytes exCodec (exLayer 1)).take 600)) (exLayer 2) = some .failed ∧
    decision exCodec (some ((tarBytes exCodec (exLayer 1)).take 1540)) (exLayer 2) = some .failed ∧
    decision exCodec none (exLayer 2) = some .written := by decide +kernel

/-- the hypotheses of the theorems are met -/
example : Fits exCodec (exLayer 1) ∧ Fits exCodec (exLayer 2) ∧ Same (exLayer 2) (exLayer 1) ∧
    (∀ e ∈ exLayer 2, e.1.changeTime = 0) ∧ (∀ e ∈ exLayer 1, e.1.changeTime = 0) ∧ ¬ Inside (exLayer 1) 1026 ∧ ¬ Whole (exLayer 1) 1026 ∧
    Inside (exLayer 1) 600 ∧ Whole (exLayer 1) 1030 := by
  refine ⟨exFits 1 (by decide), exFits 2 (by decide), by unfold Same; decide, by decide, by decide, ?_, ?_, ?_, ?_⟩
  · rw [exLayer, inside_cons, inside_cons, inside_nil]; decide
  · rw [exLayer, whole_cons, whole_cons]; intro h; exact absurd h.2.1 (by decide)
  · rw [exLayer, inside_cons, inside_cons]; exact Or.inr ⟨by decide, Or.inl (by decide)⟩
  · rw [exLayer, whole_cons, whole_cons]; exact ⟨by decide, by decide, whole_nil _⟩

/-- a history: interrupted in the content, repeated with success -/
example : History exCodec none [(exLayer 1, .interrupted), (exLayer 2, .ok)] (some (tarBytes exCodec (exLayer 2))) :=
  .run (.cut .interrupted 1026 (by simp) rfl) (.run (.written (by decide +kernel)) (.nil _))

end Fsutil.Crash
