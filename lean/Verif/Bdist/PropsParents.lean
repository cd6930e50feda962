import Verif.Bdist.Install
import Verif.Bdist.PropsZip
import Verif.Fsutil.PropsDir
import Verif.Fsutil.PropsRefs
/-!
C46: the loop adding parent directories, over a map that grows while it is ranged over.
-/
namespace Bdist
open Go Fsutil Python

/-- `n` is a proper parent of `k` -/
def Spec.Parent (n k : Str) : Prop := ∃ x, k = n ++ '/' :: x

/-- a clean relative name -/
def Spec.Rel (k : Str) : Prop := clean k = k ∧ isRooted k = false

/-- the elements before the last one, joined -/
theorem parent_iff {cs : List Str} (hc : CleanElems false cs) (n : Str) :
    Spec.Parent n (render false cs) ↔ ∃ i, 0 < i ∧ i < cs.length ∧ n = join ['/'] (cs.take i) := by
  have hno : ∀ c ∈ cs, '/' ∉ c := fun c h => (hc.elem c h).2.2
  constructor
  · rintro ⟨x, hx⟩
    have hs := split_render (rooted := false) hno
    rw [hx, split_append] at hs
    simp only [Bool.false_eq_true, if_false] at hs
    split at hs
    · have h1 := congrArg List.length hs
      have h2 := List.length_pos_iff.mpr (split_ne_nil '/' n)
      have h3 := List.length_pos_iff.mpr (split_ne_nil '/' x)
      simp only [List.length_append, List.length_singleton] at h1
      omega
    · refine ⟨(split '/' n).length, List.length_pos_iff.mpr (split_ne_nil '/' n), ?_, ?_⟩
      · rw [← hs, List.length_append]
        have h3 := List.length_pos_iff.mpr (split_ne_nil '/' x)
        omega
      · rw [← hs, List.take_left, join_split]
  · rintro ⟨i, h0, hi, rfl⟩
    have hne : cs ≠ [] := by rintro rfl; simp at hi
    unfold render
    rw [if_neg (by decide), if_neg hne]
    refine ⟨join ['/'] (cs.drop i), ?_⟩
    have key : ∀ (a b : List Str), a ≠ [] → b ≠ [] → join ['/'] (a ++ b) = join ['/'] a ++ '/' :: join ['/'] b := by
      intro a b ha hb
      induction a with
      | nil => exact absurd rfl ha
      | cons x a ih =>
        cases a with
        | nil => rw [List.cons_append, List.nil_append, join_cons hb]; simp [join]
        | cons y a =>
          rw [List.cons_append, join_cons (by simp), ih (by simp), join_cons (p := x) (ps := y :: a) (by simp)]
          simp
    have h1 : cs.take i ≠ [] := by intro e; have := congrArg List.length e; simp at this; rcases this with h | h; omega; exact hne h
    have h2 : cs.drop i ≠ [] := by intro e; have := congrArg List.length e; simp at this; omega
    rw [← key _ _ h1 h2, List.take_append_drop]

theorem leading_mem (cs : List Str) (n : Str) : n ∈ Fsutil.Spec.leading cs ↔ ∃ i, 0 < i ∧ i ≤ cs.length ∧ n = join ['/'] (cs.take i) := by
  unfold Fsutil.Spec.leading
  rw [List.mem_map]
  constructor
  · rintro ⟨i, hi, rfl⟩
    rw [List.mem_range] at hi
    exact ⟨i + 1, by omega, by omega, rfl⟩
  · rintro ⟨i, h0, hi, rfl⟩
    refine ⟨i - 1, List.mem_range.mpr (by omega), ?_⟩
    rw [show i - 1 + 1 = i by omega]

/-- the inner loop visits exactly the proper parents -/
theorem parents_dirs {k : Str} (h : Spec.Rel k) :
    ∃ dirs, prefixDirs (k.length + 1) (pathDir k) = some dirs ∧ ∀ n, n ∈ dirs ↔ Spec.Parent n k := by
  obtain ⟨cs, hc, rfl⟩ := relative_clean_elems h.1 h.2
  have hlen : cs.length ≤ (render false cs).length + 1 := by
    by_cases hne : cs = []
    · subst hne; simp
    · have := split_render (rooted := false) (fun c h => (hc.elem c h).2.2)
      simp only [Bool.false_eq_true, if_false, if_neg hne] at this
      rw [← congrArg List.length this, length_split]
      have := List.count_le_length (a := '/') (l := render false cs)
      omega
  rcases List.eq_nil_or_concat cs with rfl | ⟨ds, c, rfl⟩
  · refine ⟨[], by decide, ?_⟩
    intro n
    rw [parent_iff hc]
    simp
  · rw [List.concat_eq_append] at hc hlen ⊢
    rw [pathDir_render hc, prefixDirs_render hc.init (by simp at hlen; omega)]
    refine ⟨_, rfl, ?_⟩
    intro n
    rw [List.mem_reverse, leading_mem, parent_iff hc]
    constructor
    · rintro ⟨i, h0, hi, rfl⟩
      exact ⟨i, h0, by simp; omega, by rw [List.take_append_of_le_length hi]⟩
    · rintro ⟨i, h0, hi, rfl⟩
      simp at hi
      exact ⟨i, h0, by omega, by rw [List.take_append_of_le_length (by omega)]⟩

theorem parent_trans {a b c : Str} (h1 : Spec.Parent a b) (h2 : Spec.Parent b c) : Spec.Parent a c := by
  obtain ⟨x, rfl⟩ := h1
  obtain ⟨y, rfl⟩ := h2
  exact ⟨x ++ '/' :: y, by simp⟩

theorem parent_rel {n k : Str} (h : Spec.Parent n k) (hk : Spec.Rel k) : Spec.Rel n := by
  obtain ⟨cs, hc, rfl⟩ := relative_clean_elems hk.1 hk.2
  obtain ⟨i, h0, hi, rfl⟩ := (parent_iff hc n).mp h
  have hi' : CleanElems false (cs.take i) := by
    obtain ⟨m, ds, rfl, hd, _⟩ := hc
    rw [List.take_append, List.take_replicate]
    exact ⟨min i m, ds.take (i - (List.replicate m ['.', '.']).length), rfl, fun d hm => hd d (List.mem_of_mem_take hm), by simp⟩
  have hne : cs.take i ≠ [] := by intro e; have := congrArg List.length e; simp at this; rcases this with h | h; omega; subst h; simp at hi
  have hr : join ['/'] (cs.take i) = render false (cs.take i) := by unfold render; rw [if_neg (by decide), if_neg hne]
  rw [hr]
  exact ⟨clean_render hi', isRooted_render (fun c h => ⟨(hi'.elem c h).1, (hi'.elem c h).2.2⟩)⟩

/-- the effect of `addParents` on the running loop -/
theorem addParents_effect (t : Int) (dirs : List Str) (s : RangeState Ref) :
    let s' := (addParents t dirs s.m).foldl RangeState.apply s
    s'.must = s.must ∧ (∀ n ∈ s'.may, n ∈ s.may ∨ n ∈ dirs) ∧
    ∀ n, s'.m.get? n = if s.m.get? n = none ∧ n ∈ dirs then some (parentRef t n) else s.m.get? n := by
  induction dirs generalizing s with
  | nil => exact ⟨rfl, fun n h => Or.inl h, fun n => by simp [addParents]⟩
  | cons d dirs ih =>
    unfold addParents
    by_cases hd : (s.m.get? d).isSome
    · rw [if_pos hd]
      obtain ⟨h1, h2, h3⟩ := ih s
      refine ⟨h1, fun n hn => (h2 n hn).imp id (List.mem_cons_of_mem _), fun n => ?_⟩
      rw [h3]
      by_cases hn : n = d
      · subst hn
        rw [if_neg, if_neg] <;> (rintro ⟨h, _⟩; rw [h] at hd; cases hd)
      · simp [hn]
    · rw [if_neg hd]
      rw [Option.not_isSome_iff_eq_none] at hd
      have hk : d ∉ s.m.keys := by rw [Map.mem_keys_iff, hd]; simp
      obtain ⟨h1, h2, h3⟩ := ih (s.apply (.set d (parentRef t d)))
      rw [List.foldl_cons]
      refine ⟨h1, ?_, ?_⟩
      · intro n hn
        rcases h2 n hn with h | h
        · unfold RangeState.apply at h
          simp only [if_neg hk, List.mem_cons] at h
          rcases h with rfl | h
          · exact Or.inr (by simp)
          · exact Or.inl h
        · exact Or.inr (List.mem_cons_of_mem _ h)
      · intro n
        rw [show (s.m.set d (parentRef t d)) = (s.apply (.set d (parentRef t d))).m from rfl, h3]
        show (if (s.m.set d (parentRef t d)).get? n = none ∧ n ∈ dirs then _ else (s.m.set d (parentRef t d)).get? n) = _
        rw [Map.get?_set]
        by_cases hn : n = d
        · subst hn; simp [hd]
        · simp [hn]

/-- what holds while the loop runs -/
structure ParentsInv (t : Int) (m : Map Ref) (s : RangeState Ref) : Prop where
  kept : ∀ n r, m.get? n = some r → s.m.get? n = some r
  made : ∀ n r, s.m.get? n = some r → m.get? n = some r ∨ (r = parentRef t n ∧ ∃ k ∈ m.keys, Spec.Parent n k)
  seen : ∀ k ∈ m.keys, k ∉ s.must → ∀ n, Spec.Parent n k → s.m.get? n ≠ none
  must : ∀ k ∈ s.must, k ∈ m.keys
  may : ∀ k ∈ s.may, ∃ j ∈ m.keys, Spec.Parent k j

theorem parents_step {t : Int} {m : Map Ref} (hrel : ∀ k ∈ m.keys, Spec.Rel k) {s : RangeState Ref} (hi : ParentsInv t m s) {k : Str}
    (hk : k ∈ s.must ∨ k ∈ s.may) {ops : List (MapOp Ref)} {x : Unit} (hb : parentsBody t k s.m () = .ok (ops, x)) :
    ParentsInv t m (ops.foldl RangeState.apply (s.visit k)) := by
  have hkm : k ∈ m.keys ∨ ∃ j ∈ m.keys, Spec.Parent k j := hk.imp (hi.must k) (hi.may k)
  have hkr : Spec.Rel k := by
    rcases hkm with h | ⟨j, h1, h2⟩
    · exact hrel k h
    · exact parent_rel h2 (hrel j h1)
  have hup : ∀ n, Spec.Parent n k → ∃ j ∈ m.keys, Spec.Parent n j := by
    intro n hn
    rcases hkm with h | ⟨j, h1, h2⟩
    · exact ⟨k, h, hn⟩
    · exact ⟨j, h1, parent_trans hn h2⟩
  obtain ⟨dirs, hd, hmem⟩ := parents_dirs hkr
  unfold parentsBody at hb
  rw [hd] at hb
  simp only [Except.ok.injEq, Prod.mk.injEq] at hb
  rw [← hb.1]
  obtain ⟨h1, h2, h3⟩ := addParents_effect t dirs (s.visit k)
  have hvm : (s.visit k).m = s.m := rfl
  rw [hvm] at h1 h2 h3
  refine ⟨?_, ?_, ?_, ?_, ?_⟩
  · intro n r hr
    rw [h3, hi.kept n r hr]
    simp
  · intro n r hr
    rw [h3] at hr
    split at hr
    · rename_i hc
      cases hr
      exact Or.inr ⟨rfl, hup n ((hmem n).mp hc.2)⟩
    · exact hi.made n r hr
  · intro j hj hjn n hn hnone
    rw [h3] at hnone
    split at hnone
    · cases hnone
    · rename_i hc
      by_cases hjk : j = k
      · subst hjk
        exact hc ⟨hnone, (hmem n).mpr hn⟩
      · refine hi.seen j hj ?_ n hn hnone
        intro hm
        apply hjn
        rw [h1]
        unfold RangeState.visit
        simp [hm, hjk]
  · intro j hj
    rw [h1] at hj
    unfold RangeState.visit at hj
    exact hi.must j (List.mem_filter.mp hj).1
  · intro j hj
    rcases h2 j hj with h | h
    · unfold RangeState.visit at h
      exact hi.may j (List.mem_filter.mp h).1
    · exact hup j ((hmem j).mp h)

theorem parents_run {t : Int} {m : Map Ref} (hrel : ∀ k ∈ m.keys, Spec.Rel k) {s : RangeState Ref} {x : Unit} {r : Except Unit (Map Ref × Unit)}
    (h : RangeRun (parentsBody t) s x r) (hi : ParentsInv t m s) :
    ∃ s', ParentsInv t m s' ∧ s'.must = [] ∧ r = .ok (s'.m, ()) := by
  induction h with
  | done he => exact ⟨_, hi, he, rfl⟩
  | @fail s x k hk hb =>
    exfalso
    have hkr : Spec.Rel k := by
      rcases hk with h | h
      · exact hrel k (hi.must k h)
      · obtain ⟨j, h1, h2⟩ := hi.may k h
        exact parent_rel h2 (hrel j h1)
    obtain ⟨dirs, hd, _⟩ := parents_dirs hkr
    unfold parentsBody at hb
    rw [hd] at hb
    cases hb
  | step hk hb _ ih => exact ih (parents_step hrel hi hk hb)

/-- **C46**, the loop itself, for every order in which the map can be visited, and whether or not the entries created on the
way are visited: it ends; the files that were there are unchanged; and what is added is exactly a directory with mode 0755
for every proper parent of a file that was not there. -/
theorem C46_loop (t : Int) (m : Map Ref) (hrel : ∀ k ∈ m.keys, Spec.Rel k) (r : Except Unit (Map Ref × Unit))
    (h : RangeRun (parentsBody t) (RangeState.start m) () r) :
    ∃ m', r = .ok (m', ()) ∧
      (∀ n ref, m.get? n = some ref → m'.get? n = some ref) ∧
      (∀ n, m.get? n = none → (∃ k ∈ m.keys, Spec.Parent n k) → m'.get? n = some (parentRef t n)) ∧
      (∀ n, m.get? n = none → (¬ ∃ k ∈ m.keys, Spec.Parent n k) → m'.get? n = none) := by
  have h0 : ParentsInv t m (RangeState.start m) :=
    ⟨fun _ _ h => h, fun _ _ h => Or.inl h, fun k hk hn => absurd hk hn, fun k h => h, fun k h => by cases h⟩
  obtain ⟨s, hi, hm, rfl⟩ := parents_run hrel h h0
  refine ⟨s.m, rfl, hi.kept, ?_, ?_⟩
  · rintro n hn ⟨k, hk, hp⟩
    have hne := hi.seen k hk (by rw [hm]; simp) n hp
    cases hs : s.m.get? n with
    | none => exact absurd hs hne
    | some ref =>
      rcases hi.made n ref hs with h | ⟨h, _⟩
      · rw [hn] at h; cases h
      · rw [h]
  · intro n hn hp
    cases hs : s.m.get? n with
    | none => rfl
    | some ref =>
      rcases hi.made n ref hs with h | ⟨_, h⟩
      · rw [hn] at h; cases h
      · exact absurd h hp

/-- a map with a key is ranged over only in runs that visit the key -/
theorem run_visits {α σ : Type} {body : Str → Map α → σ → Except Unit (List (MapOp α) × σ)} {k : Str}
    (hset : ∀ j m x ops x', body j m x = .ok (ops, x') → ∀ op ∈ ops, ∃ a v, op = .set a v)
    (hk : ∀ m x, body k m x = .error ()) {s : RangeState α} {x : σ} {r : Except Unit (Map α × σ)} (h : RangeRun body s x r)
    (hm : k ∈ s.must) : r = .error () := by
  induction h with
  | done he => rw [he] at hm; cases hm
  | fail _ _ => rfl
  | @step s x j ops x' r hj hb _ ih =>
    apply ih
    have hjk : j ≠ k := by rintro rfl; rw [hk] at hb; cases hb
    have keep : ∀ (ops : List (MapOp α)), (∀ op ∈ ops, ∃ a v, op = .set a v) → ∀ s : RangeState α, k ∈ s.must →
        k ∈ (ops.foldl RangeState.apply s).must := by
      intro ops
      induction ops with
      | nil => exact fun _ _ h => h
      | cons op ops ih2 =>
        intro ho s hs
        obtain ⟨a, v, rfl⟩ := ho op (by simp)
        rw [List.foldl_cons]
        exact ih2 (fun o ho' => ho o (by simp [ho'])) _ hs
    refine keep ops (hset _ _ _ _ _ hb) _ ?_
    unfold RangeState.visit
    simp [hm, Ne.symm hjk]

theorem addParents_sets (t : Int) (dirs : List Str) (m : Map Ref) : ∀ op ∈ addParents t dirs m, ∃ a v, op = .set a v := by
  induction dirs generalizing m with
  | nil => intro op h; cases h
  | cons d dirs ih =>
    unfold addParents
    split
    · exact ih m
    · intro op h
      rcases List.mem_cons.mp h with rfl | h
      · exact ⟨_, _, rfl⟩
      · exact ih _ op h

/-- **C46**, what is left out of `C46_loop`: with a rooted name in the map, `path.Dir` goes on returning "/" for ever, so
the loop does not end, in whatever order the map is visited. -/
theorem C46_rooted_name_hangs (t : Int) (m : Map Ref) {k : Str} (hk : k ∈ m.keys) (hr : isRooted k = true)
    (r : Except Unit (Map Ref × Unit)) (h : RangeRun (parentsBody t) (RangeState.start m) () r) : r = .error () := by
  refine run_visits (k := k) ?_ ?_ h hk
  · intro j m x ops x' hb
    unfold parentsBody at hb
    split at hb
    · cases hb
    · cases hb; exact addParents_sets _ _ _
  · intro m x
    have hrd : ∃ cs, CleanElems true cs ∧ pathDir k = render true cs := by
      unfold pathDir
      obtain ⟨cs, h1, h2⟩ := clean_shape (pathSplit k).1
      have hrt : isRooted (pathSplit k).1 = true := by
        cases k with
        | nil => cases hr
        | cons c k =>
          have hc : c = '/' := by simpa [isRooted] using hr
          subst hc
          by_cases hs : '/' ∈ k
          · obtain ⟨a, b, he, hb⟩ : ∃ a b, k = a ++ '/' :: b ∧ '/' ∉ b := by
              clear h hk h1 h2 hr
              induction k with
              | nil => cases hs
              | cons c k ih =>
                by_cases hk : '/' ∈ k
                · obtain ⟨a, b, rfl, hb⟩ := ih hk
                  exact ⟨c :: a, b, rfl, hb⟩
                · rcases List.mem_cons.mp hs with rfl | h
                  · exact ⟨[], k, rfl, hk⟩
                  · exact absurd h hk
            subst he
            rw [show '/' :: (a ++ '/' :: b) = ('/' :: a) ++ '/' :: b from rfl, pathSplit_slash hb]
            rfl
          · rw [show '/' :: k = [] ++ '/' :: k from rfl, pathSplit_slash hs]
            rfl
      rw [hrt] at h1 h2
      exact ⟨cs, h1, h2⟩
    obtain ⟨cs, h1, h2⟩ := hrd
    unfold parentsBody
    rw [h2, prefixDirs_absolute h1]

end Bdist
