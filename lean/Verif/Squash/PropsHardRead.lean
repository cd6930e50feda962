import Verif.Squash.PropsHard
import Verif.Squash.PropsRead
/-! C109: reading from the loaded layers what extracting them gives. -/
namespace Squash
open Go Spec

/-- opening the name and reading it to the end gives these bytes, whatever the sizes of the buffers -/
def Spec.ReadsAs (n : Nat) (S : FS) (name : Str) (body : Bytes) : Prop :=
  ∃ self tgt nd, openFile n S name = some (.ok (self, tgt)) ∧ S.get? tgt = some nd ∧
    ∀ ms, delivered (freshReader nd) ms = body.take ms.sum

/-- **C109** for files that are not hard links: the layers load and extract, and every file that extracting them puts
into place (other than a symlink) reads from the loaded file system with the content it has when extracted. -/
theorem C109_read_partial (layers : List (List Entry)) (hin : ∀ l ∈ layers, ∀ e ∈ l, ¬ Outside e.header.name)
    (hl : NoThrough layers) (hk : LinksKept (layers.flatMap inOrder)) (n : Nat) (hn : 3 ≤ n) :
    ∃ S E, loadLayers n layers false = some (.ok S) ∧ extractLayers emptyView layers = some E ∧
      ∀ name, validPath name = true → Visible (comps name) → ∀ h body, E (comps name) = some ⟨some h, body⟩ →
        h.typeflag ≠ '5' → h.typeflag ≠ '2' → h.size ≤ body.length →
        (∀ l ∈ layers, ∀ e ∈ l, pathOf e = comps name → e.header.typeflag ≠ '1') → ReadsAs n S name body := by
  obtain ⟨S, h1, h2⟩ := load_sim (oc := false) hin hl hn
  have e0 : layers.map (·.map (dropBody false)) = layers := by
    have e : dropBody false = id := by funext e; rfl
    rw [e]; simp
  rw [e0, applyLayers_eq] at h2
  have hV : Extracted emptyView := by
    refine ⟨rootDir_empty, ?_⟩
    intro q nd h
    unfold emptyView at h
    by_cases hq : q = []
    · rw [if_pos hq] at h
      injection h with h
      rw [← h]; rintro ⟨hd, h1, _⟩; cases h1
    · rw [if_neg hq] at h; cases h
  obtain ⟨E, h3, h4⟩ := extract_look hV hk
  refine ⟨S, E, h1, h3, ?_⟩
  intro name hv hvis h body hE h5 h6 h7 h8
  have hg : S.get? (comps name) = some ⟨some h, body⟩ := by
    rw [h2.view _ hvis, ← hE, h4]
    refine (look_plain ?_).symm
    intro nd a b
    rcases hard_origin _ _ _ _ a b with c | ⟨e, c1, c2, c3, _⟩
    · exact hV.nohard _ _ c b
    · obtain ⟨l, k1, k2⟩ := mem_flat.mp c1
      exact h8 l k1 e k2 c3 c2.1
  obtain ⟨k, rfl⟩ : ∃ k, n = k + 2 := ⟨n - 2, by omega⟩
  refine ⟨_, _, _, (open_exact h2.inv hv ?_).1 _ hg ?_, hg, fun ms => (C70_read h body h5 h7 ms).1⟩
  · intro t a b
    cases hx : S.link t with
    | none => rfl
    | some x =>
      have hnd : S.nonDir t = true := by
        unfold FS.link at hx
        cases hy : S.get? t with
        | none => rw [hy] at hx; simp at hx
        | some nd =>
          rw [hy] at hx
          unfold FS.nonDir
          rw [hy]
          obtain ⟨hd, bd⟩ := nd
          cases hd with
          | none => simp [Node.link] at hx
          | some hd =>
            simp only [Node.link] at hx
            have : hd.typeflag = '2' := by
              apply Classical.byContradiction
              intro hne
              rw [if_neg (show ¬ (hd.typeflag = typeSymlink) from hne)] at hx
              cases hx
            simp only [Node.nonDir, this]; decide
      rw [h2.inv.noDesc (h2.inv.leaf t hnd) a (Ne.symm b)] at hg
      cases hg
  · simp only [Node.link]
    exact if_neg h6

/-- a file that is read, beside a hard link to it -/
example : (∀ l ∈ exHardLayers, ∀ e ∈ l, ¬ Outside e.header.name) ∧ NoThrough exHardLayers ∧
    LinksKept (exHardLayers.flatMap inOrder) ∧
    (extractLayers emptyView exHardLayers).bind (fun E => E (comps "bin/a".toList)) =
      some ⟨some (exFile "bin/a" [1]).header, [1]⟩ ∧
    (∀ l ∈ exHardLayers, ∀ e ∈ l, pathOf e = comps "bin/a".toList → e.header.typeflag ≠ '1') :=
  ⟨exHard_tame.inside, exHard_tame.noThrough, linksKept_of (by decide +kernel), by decide +kernel, by decide +kernel⟩

/-- The code violates C109.  "b" is a hard link to "a": extracted, it has the content of "a"; opened in the loaded file
system it can be read and is empty. -/
theorem C109_violated (n : Nat) (hn : 9 ≤ n) : ∃ S, loadLayers n [[exFile "a" [1], exHard "b" "a"]] false = some (.ok S) ∧
    (extractLayers emptyView [[exFile "a" [1], exHard "b" "a"]]).bind (fun E => E ["b".toList]) =
      some ⟨some (exFile "a" [1]).header, [1]⟩ ∧
    ReadsAs n S "b".toList [] := by
  obtain ⟨S, h1, h2⟩ := load_get (n := 9) (layers := [[exFile "a" [1], exHard "b" "a"]]) (q := ["b".toList])
    (x := some (nodeOf (exHard "b" "a"))) (by decide +kernel) n hn
  refine ⟨S, h1, by decide +kernel, ?_⟩
  have hi : Inv false S := load_inv (by simp) h1
  obtain ⟨k, rfl⟩ : ∃ k, n = k + 2 := ⟨n - 2, by omega⟩
  have hc : comps "b".toList = ["b".toList] := by decide +kernel
  refine ⟨["b".toList], ["b".toList], _, ?_, h2, fun ms => ?_⟩
  · have := (open_exact (n := k) hi (name := "b".toList) (by decide +kernel) ?_).1 (nodeOf (exHard "b" "a")) (by rw [hc]; exact h2)
      (by decide +kernel)
    · rw [hc] at this; exact this
    · rw [hc]
      intro t h3 h4
      have ht : t = [] := by
        cases t with
        | nil => rfl
        | cons a t =>
          rw [List.cons_prefix_cons] at h3
          obtain ⟨rfl, h5⟩ := h3
          rw [List.prefix_nil] at h5
          exact absurd (by rw [h5]) h4
      subst ht
      unfold FS.link
      obtain ⟨S', h5, h6⟩ := load_get (n := 9) (layers := [[exFile "a" [1], exHard "b" "a"]]) (q := [])
        (x := some ⟨none, []⟩) (by decide +kernel) (k + 2) hn
      rw [h1] at h5
      simp only [Option.some.injEq, Except.ok.injEq] at h5
      rw [h5, h6]; rfl
  · have := (C70_read { (exHard "b" "a").header with name := clean (exHard "b" "a").header.name } [] (by decide) (by decide) ms).1
    exact this

end Squash
