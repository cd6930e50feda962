import Verif.Cli.Write
import Verif.Cli.PropsCobra
/-! C113: a `layer` command that exits with status 0 has written the complete layer. -/
namespace Cobra
open Go
open Spec

theorem copy_spec (w : Writer) (readErr : Bool) (cs : List Octets) : ∀ out,
    ((copy w readErr out cs).2 = false → (copy w readErr out cs).1 = out ++ cs.flatten ∧ readErr = false)
    ∧ ∃ part rest, cs.flatten = part ++ rest ∧ (copy w readErr out cs).1 = out ++ part := by
  induction cs with
  | nil =>
    intro out
    exact ⟨fun h => ⟨(List.append_nil _).symm, h⟩, [], [], rfl, (List.append_nil _).symm⟩
  | cons c cs ih =>
    intro out
    rw [copy]
    by_cases hc : c = []
    · rw [if_pos hc, hc]
      simpa using ih out
    rw [if_neg hc]
    generalize w out c = q
    obtain ⟨n, e⟩ := q
    simp only
    have hpart : ∃ part rest, (c :: cs).flatten = part ++ rest ∧ out ++ c.take n = out ++ part :=
      ⟨c.take n, c.drop n ++ cs.flatten, by rw [List.flatten_cons, ← List.append_assoc, List.take_append_drop], rfl⟩
    by_cases he : e = true
    · rw [if_pos he]
      exact ⟨fun h => (nomatch h), hpart⟩
    rw [if_neg he]
    by_cases hn : n ≠ c.length
    · rw [if_pos hn]
      exact ⟨fun h => (nomatch h), hpart⟩
    rw [if_neg hn]
    have hn' : c.take n = c := by rw [Classical.not_not.mp hn, List.take_length]
    rw [hn']
    obtain ⟨h1, part, rest, h2, h3⟩ := ih (out ++ c)
    refine ⟨fun h => ?_, c ++ part, rest, ?_, ?_⟩
    · obtain ⟨h4, h5⟩ := h1 h
      exact ⟨by rw [h4, List.flatten_cons, List.append_assoc], h5⟩
    · rw [List.flatten_cons, h2, List.append_assoc]
    · rw [h3, List.append_assoc]

/-- the converse: nothing fails, and the copy is complete without error -/
theorem copy_ok (w : Writer) (hw : ∀ out c, w out c = (c.length, false)) (cs : List Octets) : ∀ out,
    copy w false out cs = (out ++ cs.flatten, false) := by
  induction cs with
  | nil => intro out; rw [copy, List.flatten_nil, List.append_nil]
  | cons c cs ih =>
    intro out
    rw [copy]
    by_cases hc : c = []
    · rw [if_pos hc, ih, hc, List.flatten_cons, List.nil_append]
    · rw [if_neg hc, hw]
      simp only
      rw [if_neg (by decide), if_neg (by simp), List.take_length, ih, List.flatten_cons, List.append_assoc]

/-- **C113** For every command line, every stdout (also one that fails or is full) and every layer made: if the status
is 0 and a command was run, then the layer was made, reading and closing it worked, and exactly its bytes were written
to stdout; if the status is not 0, then what was written to stdout is nothing, or the beginning of the layer.  A command
line that is not run writes nothing. -/
theorem C113_complete (isInt : Str → Bool) (w : Writer) (make : Cmd → List Use → List Str → Option Source)
    (args : List Str) :
    (∀ out, layerProcess isInt w make args = (0, some out) →
      ∃ c us as s, (∃ l, l.Sublist args ∧ Proper isInt c l us as) ∧ make c us as = some s
        ∧ s.openErr = false ∧ s.readErr = false ∧ s.closeErr = false ∧ out = s.chunks.flatten)
    ∧ (∀ st out, layerProcess isInt w make args = (st, some out) → st ≠ 0 →
      st = 1 ∧ (out = [] ∨ ∃ c us as s rest, (∃ l, l.Sublist args ∧ Proper isInt c l us as) ∧ make c us as = some s
        ∧ s.chunks.flatten = out ++ rest)) := by
  unfold layerProcess
  have hst := (C111_status_partial isInt (fun c us as => !(runLayer w (make c us as)).2) args).1
  generalize hr : process isInt (fun c us as => !(runLayer w (make c us as)).2) args = r at *
  obtain ⟨status, ran⟩ := r
  cases ran with
  | none => exact ⟨fun out h => (by simp at h), fun st out h => (by simp at h)⟩
  | some q =>
    obtain ⟨c, us, as⟩ := q
    obtain ⟨hl, hreq, _, hs⟩ := hst c us as rfl
    simp only [Option.map_some, Prod.mk.injEq, Option.some.injEq]
    simp only at hs
    have hrun : ∀ s, make c us as = some s → runLayer w (make c us as) = writeLayer w s := by
      intro s h; rw [h]; rfl
    constructor
    · rintro out ⟨h1, h2⟩
      have h3 : (runLayer w (make c us as)).2 = false := by
        cases hb : (runLayer w (make c us as)).2 with
        | false => rfl
        | true => rw [hb] at hs; rw [hs] at h1; exact absurd h1 (by decide)
      cases hm : make c us as with
      | none => rw [hm] at h3; exact nomatch h3
      | some s =>
        rw [hrun s hm] at h2 h3
        unfold writeLayer at h2 h3
        by_cases ho : s.openErr = true
        · rw [if_pos ho] at h3; exact nomatch h3
        rw [if_neg ho] at h2 h3
        simp only [Bool.or_eq_false_iff] at h2 h3
        obtain ⟨h4, h5⟩ := (copy_spec w s.readErr s.chunks []).1 h3.1
        refine ⟨c, us, as, s, hl, hm, by simpa using ho, h5, h3.2, ?_⟩
        rw [← h2, h4]; rfl
    · rintro st out ⟨h1, h2⟩ h3
      refine ⟨?_, ?_⟩
      · rw [← h1, hs]
        split
        · rename_i h
          rw [if_pos h] at hs
          exact absurd (h1.symm.trans hs) h3
        · rfl
      · cases hm : make c us as with
        | none => rw [hm] at h2; exact .inl h2.symm
        | some s =>
          rw [hrun s hm] at h2
          unfold writeLayer at h2
          by_cases ho : s.openErr = true
          · rw [if_pos ho] at h2; exact .inl h2.symm
          rw [if_neg ho] at h2
          obtain ⟨part, rest, h4, h5⟩ := (copy_spec w s.readErr s.chunks []).2
          refine .inr ⟨c, us, as, s, rest, hl, hm, ?_⟩
          simp only at h2
          rw [← h2, h5, h4]; rfl

/-- **C113** (it works) On a stdout that takes everything, when the layer is made and can be read, the command
succeeds. -/
theorem C113_succeeds (isInt : Str → Bool) (w : Writer) (hw : ∀ out c, w out c = (c.length, false))
    (make : Cmd → List Use → List Str → Option Source) (c : Cmd) (ws : List Str) (hc : words c = some ws)
    (l : List Str) (us : List Use) (as : List Str) (hp : Proper isInt c l us as) (hr : HasRequired c us) (s : Source)
    (hm : make c us as = some s) (h1 : s.openErr = false) (h2 : s.readErr = false) (h3 : s.closeErr = false) :
    layerProcess isInt w make (ws ++ l) = (0, some s.chunks.flatten) := by
  have hrun : runLayer w (make c us as) = (s.chunks.flatten, false) := by
    rw [hm]
    show writeLayer w s = _
    unfold writeLayer
    rw [if_neg (by simp [h1]), h2, copy_ok w hw, h3]
    rfl
  unfold layerProcess
  rw [(C111_lines_partial isInt _ c ws hc l).1 us as hp hr]
  simp only [Option.map_some]
  rw [hrun]
  rfl

/-- a layer of two chunks and a stdout that is full after three bytes: status 1 and three bytes written -/
example : layerProcess (fun _ => true) (fun out c => if out.length + c.length ≤ 3 then (c.length, false) else (3 - out.length, true))
      (fun _ _ _ => some ⟨false, [[1, 2], [3, 4]], false, false⟩) ["layer".toList, "dir".toList, "d".toList]
    = (1, some [1, 2, 3]) := by decide +kernel

/-- and one that takes everything -/
example : layerProcess (fun _ => true) (fun _ c => (c.length, false))
      (fun _ _ _ => some ⟨false, [[1, 2], [3, 4]], false, false⟩) ["layer".toList, "dir".toList, "d".toList]
    = (0, some [1, 2, 3, 4]) := by decide +kernel

end Cobra
