import Verif.Fsutil.Order
import Verif.Fsutil.Spec
/-! C53, C54, C55: layers made from file references. -/
namespace Fsutil
open Go

theorem clampTimes_eq (clamp : Int) (h : Hdr) : clampTimes clamp h = Spec.clamped clamp h := by
  obtain ⟨⟩ := h
  simp only [clampTimes, Spec.clamped]
  split <;> split <;> split <;> simp_all <;> omega

/-- what is written for a file -/
theorem refEntry_ok {accepts : Hdr → Bool} {clamp : Int} {f : FileRef} {e : Hdr × Bytes} (h : refEntry accepts clamp f = .ok e) :
    ∃ i, f.info = some i ∧ e.1 = Spec.clamped clamp { i with name := f.name } ∧
      (i.typeflag = typeReg → f.content = some e.2 ∧ (e.2.length : Int) = i.size) ∧ (i.typeflag ≠ typeReg → e.2 = []) := by
  unfold refEntry at h
  cases hi : f.info with
  | none => rw [hi] at h; cases h
  | some i =>
    rw [hi] at h
    simp only [clampTimes_eq] at h
    by_cases ha : accepts (Spec.clamped clamp { i with name := f.name }) = true
    · rw [if_pos ha] at h
      cases hb : bodyOf (Spec.clamped clamp { i with name := f.name }) f.content with
      | error u => rw [hb] at h; cases h
      | ok b =>
        rw [hb] at h
        simp only [Except.bind, Except.ok.injEq] at h
        subst h
        refine ⟨i, rfl, rfl, ?_, ?_⟩
        · intro ht
          unfold bodyOf at hb
          rw [if_pos (show (Spec.clamped clamp { i with name := f.name }).typeflag = typeReg from ht)] at hb
          cases hc : f.content with
          | none => rw [hc] at hb; cases hb
          | some c =>
            rw [hc] at hb
            simp only at hb
            split at hb
            · rename_i hsz
              cases hb
              exact ⟨rfl, hsz⟩
            · cases hb
        · intro ht
          unfold bodyOf at hb
          rw [if_neg (show ¬ (Spec.clamped clamp { i with name := f.name }).typeflag = typeReg from ht)] at hb
          cases hb; rfl
    · rw [if_neg ha] at h; cases h

theorem refEntries_cons {accepts : Hdr → Bool} {clamp : Int} {f : FileRef} {fs : List FileRef} {es : List (Hdr × Bytes)}
    (h : refEntries accepts clamp (f :: fs) = .ok es) :
    ∃ e es', refEntry accepts clamp f = .ok e ∧ refEntries accepts clamp fs = .ok es' ∧ es = e :: es' := by
  rw [refEntries] at h
  cases he : refEntry accepts clamp f with
  | error u => rw [he] at h; cases h
  | ok e =>
    rw [he] at h
    cases hes : refEntries accepts clamp fs with
    | error u => rw [hes] at h; cases h
    | ok es' => rw [hes] at h; cases h; exact ⟨e, es', rfl, rfl, rfl⟩

theorem refEntries_names {accepts : Hdr → Bool} {clamp : Int} {fs : List FileRef} {es : List (Hdr × Bytes)}
    (h : refEntries accepts clamp fs = .ok es) : es.map (·.1.name) = fs.map (·.name) := by
  induction fs generalizing es with
  | nil => cases h; rfl
  | cons f fs ih =>
    obtain ⟨e, es', h1, h2, rfl⟩ := refEntries_cons h
    obtain ⟨i, _, he, _⟩ := refEntry_ok h1
    rw [List.map_cons, List.map_cons, ih h2, he]
    rfl

theorem refEntries_mem {accepts : Hdr → Bool} {clamp : Int} {fs : List FileRef} {es : List (Hdr × Bytes)}
    (h : refEntries accepts clamp fs = .ok es) : ∀ e ∈ es, ∃ f ∈ fs, refEntry accepts clamp f = .ok e := by
  induction fs generalizing es with
  | nil => cases h; intro e he; cases he
  | cons f fs ih =>
    obtain ⟨e, es', h1, h2, rfl⟩ := refEntries_cons h
    intro x hx
    rcases List.mem_cons.mp hx with rfl | hx
    · exact ⟨f, by simp, h1⟩
    · obtain ⟨g, hg, h3⟩ := ih h2 x hx
      exact ⟨g, by simp [hg], h3⟩

/-- **C53**: when the cleaned names are distinct, `LayerFromFileReferences` gives the same result — the same entries in the
same order, or an error — for every order of the input and every way `sort.Slice` may sort. -/
theorem C53_order_independent {srt srt' : (FileRef → FileRef → Bool) → List FileRef → List FileRef} (hs : SortSlice srt)
    (hs' : SortSlice srt') (accepts : Hdr → Bool) (clamp : Int) {l l' : List FileRef}
    (hclean : ∀ f ∈ l, clean f.name = f.name) (hnodup : (l.map (·.name)).Nodup) (h : l.Perm l') :
    layerFromRefs srt accepts clamp l = layerFromRefs srt' accepts clamp l' := by
  unfold layerFromRefs
  congr 1
  refine List.Perm.eq_of_pairwise (le := fun a b => refLess b a = false) ?_
    (hs.sorted _ l (refLess_weak _)) (hs'.sorted _ l' (refLess_weak _)) (((hs.perm _ l).trans h).trans (hs'.perm _ l').symm)
  intro a b ha hb h1 h2
  have ma := (hs.perm _ l).mem_iff.mp ha
  have mb := h.mem_iff.mpr ((hs'.perm _ l').mem_iff.mp hb)
  have hn := refLess_total (hclean a ma) (hclean b mb) h2 h1
  have inj : ∀ {l : List FileRef}, (l.map (·.name)).Nodup → ∀ a ∈ l, ∀ b ∈ l, a.name = b.name → a = b := by
    intro l
    induction l with
    | nil => intro _ a ha; cases ha
    | cons x l ih =>
      intro hn a ha b hb e
      rw [List.map_cons, List.nodup_cons] at hn
      rcases List.mem_cons.mp ha with rfl | ha <;> rcases List.mem_cons.mp hb with rfl | hb
      · rfl
      · exact absurd (List.mem_map.mpr ⟨b, hb, e.symm⟩) hn.1
      · exact absurd (List.mem_map.mpr ⟨a, ‹a ∈ l›, e⟩) hn.1
      · exact ih hn.2 a ha b hb e
  exact inj hnodup a ma b mb hn

/-- **C54**: in the layer a directory precedes everything below it: no entry `d/x` comes before an entry `d`. -/
theorem C54_directories_first {srt : (FileRef → FileRef → Bool) → List FileRef → List FileRef} (hs : SortSlice srt)
    {accepts : Hdr → Bool} {clamp : Int} {l : List FileRef} {es : List (Hdr × Bytes)}
    (hclean : ∀ f ∈ l, clean f.name = f.name) (h : layerFromRefs srt accepts clamp l = .ok es) :
    (es.map (·.1.name)).Pairwise (fun earlier later => ¬ Spec.Below earlier later) := by
  rw [refEntries_names h]
  rw [List.pairwise_map]
  refine List.Pairwise.imp_of_mem ?_ (hs.sorted _ l (refLess_weak _))
  rintro a b ha hb hab ⟨x, e⟩
  have ma := (hs.perm _ l).mem_iff.mp ha
  have mb := (hs.perm _ l).mem_iff.mp hb
  rw [refLess_below (hclean b mb) (hclean a ma) e] at hab
  cases hab

/-- the layer has one entry for each file given, in some order -/
theorem C54_entries_are_the_files {srt : (FileRef → FileRef → Bool) → List FileRef → List FileRef} (hs : SortSlice srt)
    {accepts : Hdr → Bool} {clamp : Int} {l : List FileRef} {es : List (Hdr × Bytes)}
    (h : layerFromRefs srt accepts clamp l = .ok es) : (es.map (·.1.name)).Perm (l.map (·.name)) := by
  rw [refEntries_names h]
  exact (hs.perm _ l).map _

/-- **C55** for `LayerFromFileReferences`, headers handed to the tar writer: each is the file's own with name set, the three
times replaced by the minimum of themselves and the clamp time, and nothing else changed; a regular file's content is
written after it, nothing after others.  Missing: what the tar writer does to the times, see `C55_written_rounded`. -/
theorem C55_clamped_refs_partial {srt : (FileRef → FileRef → Bool) → List FileRef → List FileRef} (hs : SortSlice srt)
    {accepts : Hdr → Bool} {clamp : Int} {l : List FileRef} {es : List (Hdr × Bytes)}
    (h : layerFromRefs srt accepts clamp l = .ok es) :
    ∀ e ∈ es, ∃ f ∈ l, ∃ i, f.info = some i ∧
      e.1 = { i with name := f.name, modTime := min i.modTime clamp, accessTime := min i.accessTime clamp,
                     changeTime := min i.changeTime clamp } ∧
      (i.typeflag = typeReg → f.content = some e.2 ∧ (e.2.length : Int) = i.size) ∧ (i.typeflag ≠ typeReg → e.2 = []) := by
  intro e he
  obtain ⟨f, hf, h1⟩ := refEntries_mem h e he
  obtain ⟨i, hi, h2, h3, h4⟩ := refEntry_ok h1
  exact ⟨f, (hs.perm _ l).mem_iff.mp hf, i, hi, h2, h3, h4⟩

/-- the modification time found in the layer, after the tar writer has rounded it to a second, is at most half a second
later than the clamp time, and not later at all if the clamp time is a whole second -/
theorem C55_written_rounded (t clamp : Int) :
    roundSecond (min t clamp) ≤ clamp + 500000000 ∧ (clamp % 1000000000 = 0 → roundSecond (min t clamp) ≤ clamp) := by
  unfold roundSecond
  constructor
  · have := Int.min_le_right t clamp; omega
  · have := Int.min_le_right t clamp; omega

/-- the time found in the layer can be later than the clamp time: with a clamp time of 1.7 s it is 2 s -/
theorem C55_violated : ∃ t clamp : Int, clamp < roundSecond (min t clamp) := ⟨2000000000, 1700000000, by decide⟩

def sampleHdr (name : Str) (ty : Char) (t : Int) (size : Int) : Hdr :=
  ⟨name, ty, [], size, 0o644, 0, 0, [], [], t, t, t, [], []⟩

/-- names with a character below '/' next to a directory: `a-b`, `a/x`, `a` -/
def sampleRefs : List FileRef :=
  [⟨"a-b".toList, some (sampleHdr [] '0' 7 1), some [1]⟩, ⟨"a/x".toList, some (sampleHdr [] '0' 3 2), some [1, 2]⟩,
   ⟨"a".toList, some (sampleHdr [] '5' 9 0), none⟩]

example : (∀ f ∈ sampleRefs, clean f.name = f.name) ∧ (sampleRefs.map (·.name)).Nodup ∧
    layerFromRefs insertionSort (fun _ => true) 5 sampleRefs = .ok
      [(sampleHdr "a".toList '5' 5 0, []), (sampleHdr "a/x".toList '0' 3 2, [1, 2]), (sampleHdr "a-b".toList '0' 5 1, [1])] := by
  refine ⟨by decide +kernel, by decide +kernel, by decide +kernel⟩

end Fsutil
