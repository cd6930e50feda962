import Verif.Squash.Act
/-! Loading regular layers: the tree acts on a lower file system as the layers' entries do, one after the other. -/
namespace Squash
open Go Spec

theorem addEntries_append (n : Nat) : ∀ (es fs : List Entry) (S : FS),
    addEntries n S (es ++ fs) = (addEntries n S es).bind fun S' => addEntries n S' fs := by
  intro es
  induction es with
  | nil => intro fs S; rfl
  | cons e es ih =>
    intro fs S
    rw [List.cons_append, addEntries, addEntries]
    cases h : addEntry n S e with
    | none => rfl
    | some r =>
      cases r with
      | error u => rfl
      | ok S' => exact ih fs S'

/-- loading is adding the entries in order -/
theorem loadFrom_eq (n : Nat) (oc : Bool) : ∀ (ls : List (List Entry)) (S : FS),
    (∀ l ∈ ls, ∀ e ∈ l, outside (clean e.header.name) = false) →
    loadFrom n oc S ls = addEntries n S ((ls.flatMap inOrder).map (cleaned oc)) := by
  intro ls
  induction ls with
  | nil => intro S _; rfl
  | cons l ls ih =>
    intro S h
    rw [loadFrom, parseLayer_eq l (h l (by simp))]
    simp only
    rw [List.flatMap_cons, List.map_append, addEntries_append]
    unfold inOrder
    rw [List.map_append, addEntries_append]
    cases h1 : addEntries n S ((l.filter (fun e => isMarkerEntry e)).map (cleaned oc)) with
    | none => rfl
    | some r =>
      cases r with
      | error u => rfl
      | ok S1 =>
        rw [bind_some_ok, bind_some_ok]
        cases h2 : addEntries n S1 ((l.filter (fun e => ¬ isMarkerEntry e)).map (cleaned oc)) with
        | none => rfl
        | some r =>
          cases r with
          | error u => rfl
          | ok S2 =>
            rw [bind_some_ok, bind_some_ok]
            exact ih S2 (fun x hx => h x (by simp [hx]))

/-- a non-directory entry for `p` is followed by a directory entry for `p` -/
def Spec.Replaced (es : List Entry) (p : List Str) : Prop :=
  ∃ A a B b C, es = A ++ a :: (B ++ b :: C) ∧ pathOf a = p ∧ pathOf b = p ∧ a.header.typeflag ≠ '5' ∧ b.header.typeflag = '5'

/-- no directory entry comes after a whiteout of the same path -/
def Spec.NoRevival (es : List Entry) : Prop :=
  es.Pairwise (fun a b => ∀ d x, pathOf a = d ++ [".wh.".toList ++ x] → pathOf b = d ++ [x] → isMarker x ∨ b.header.typeflag ≠ '5')

/-- no entry is put below a path that is a file at that time -/
def Spec.Grounded (es : List Entry) : Prop :=
  ∀ A e B, es = A ++ e :: B → ∀ a, a <+: pathOf e → a ≠ pathOf e → ∀ nd, A.foldl apply emptyView a = some nd → ¬ isFile nd

structure Built (L : Path → Prop) (done : List Entry) (S : FS) : Prop where
  wf : WFS S
  sim : Sim L S (done.foldl apply emptyView)
  origin : ∀ q nd h, S.get? q = some nd → nd.header = some h → (∃ e ∈ done, pathOf e = q ∧ nd = nodeOf e) ∨
    ∃ d, q = d ++ [opqName] ∧ nd = ⟨some opqHeader, []⟩ ∧ Replaced done d
  nowh : ∀ d x nd h, S.has (d ++ [whPrefix ++ x]) → S.get? (d ++ [x]) = some nd → nd.header = some h → isMarker x
  act : ∀ q x, Visible q → ['.'] ∉ q → (q = [] → ∃ nd, x = some nd ∧ nd.nonDir = false) →
    act S q x = done.foldl apply (fun _ => x) q

theorem get?_emptyFS_snoc (d : Path) (k : Str) : emptyFS.get? (d ++ [k]) = none := by
  rw [get?_emptyFS]; unfold emptyView; rw [if_neg (by simp)]

theorem emptyFS_nonDir (d : Path) : emptyFS.nonDir d = false := by
  unfold FS.nonDir
  rw [get?_emptyFS]
  unfold emptyView
  by_cases h : d = []
  · rw [if_pos h]; rfl
  · rw [if_neg h]

theorem not_masked_empty (q : Path) : ¬ masked emptyFS q := by
  rintro (⟨d, k, h, _⟩ | ⟨d, h, _⟩)
  · unfold FS.has at h; rw [get?_emptyFS_snoc] at h; simp at h
  · rw [emptyFS_nonDir] at h; simp at h

theorem built_empty (L : Path → Prop) : Built L [] emptyFS := by
  have hg : ∀ p nd, emptyFS.get? p = some nd → p = [] ∧ nd = ⟨none, []⟩ := by
    intro p nd h
    rw [get?_emptyFS] at h
    unfold emptyView at h
    split at h
    · rename_i hp; injection h with h; exact ⟨hp, h.symm⟩
    · simp at h
  have hh : ∀ p, emptyFS.has p → p = [] := by
    intro p h
    obtain ⟨nd, h⟩ := Option.isSome_iff_exists.mp h
    exact (hg p nd h).1
  refine ⟨⟨inv_empty false, ?_, ?_, ?_, ?_, ?_, emptyFS_nonDir _⟩, sim_empty L, ?_, ?_, ?_⟩
  · intro p hp c hc; rw [hh p hp] at hc; simp at hc
  · intro p c hp; have := hh _ hp; simp at this
  · intro p c nd hp; have := (hg _ _ hp).1; simp at this
  · intro q nd hq _ hne; exact absurd (hg _ _ hq).1 hne
  · intro q nd h _ hq h2; rw [(hg _ _ hq).2] at h2; simp at h2
  · intro q nd h hq h2; rw [(hg _ _ hq).2] at h2; simp at h2
  · intro d x nd h hq; have := hh _ hq; simp at this
  · intro q x _ _ hx
    simp only [List.foldl_nil]
    unfold Squash.act
    rw [get?_emptyFS]
    unfold emptyView
    by_cases hq : q = []
    · obtain ⟨nd, h1, h2⟩ := hx hq
      rw [if_pos hq]
      simp only [Option.isSome_none, Bool.false_eq_true, if_false]
      rw [if_neg (not_masked_empty q), h1, dirOr_dir h2]
    · rw [if_neg hq]
      simp only
      rw [if_neg (not_masked_empty q)]

theorem replaced_snoc {es : List Entry} {e : Entry} {p : Path} (h : Replaced es p) : Replaced (es ++ [e]) p := by
  obtain ⟨A, a, B, b, C, h1, h2⟩ := h
  exact ⟨A, a, B, b, C ++ [e], by rw [h1]; simp, h2⟩

theorem marker_last {e : Entry} {p : Path} {c : Str} (h : pathOf e = p ++ [c]) (hm : isMarker c) : isMarkerEntry e :=
  ⟨c, by rw [h]; simp, hm⟩

theorem nodeOf_nonDir (e : Entry) : (nodeOf e).nonDir = true ↔ e.header.typeflag ≠ '5' := by
  unfold nodeOf Node.nonDir
  simp only [typeDir]
  exact decide_eq_true_iff

theorem nodeOf_dir (e : Entry) : (nodeOf e).nonDir = false ↔ e.header.typeflag = '5' := by
  have := nodeOf_nonDir e
  cases h : (nodeOf e).nonDir with
  | true => rw [h] at this; simp at this; simp [this]
  | false => rw [h] at this; simp at this; simp [this]

theorem built_step {L : Path → Prop} {n : Nat} {done : List Entry} {S : FS} {e : Entry} (h : Built L done S)
    (ho : outside (clean e.header.name) = false) (hl : e.header.typeflag = '2' → L (pathOf e))
    (hL : ∀ p, L p → p <+: pathOf e → p = pathOf e) (hr : Regular e)
    (hd : ∀ a, a <+: pathOf e → a ≠ pathOf e → ∀ nd, done.foldl apply emptyView a = some nd → ¬ isFile nd)
    (hf : ∀ e' ∈ done, ∀ d x, pathOf e' = d ++ [".wh.".toList ++ x] → pathOf e = d ++ [x] → isMarker x ∨ e.header.typeflag ≠ '5') :
    ∃ S', addEntry (n + 3) S (cleaned false e) = some (.ok S') ∧ Built L (done ++ [e]) S' := by
  obtain ⟨S', hadd, hsim⟩ := addEntry_sim (n := n) (oc := false) h.sim ho hl hL
  have hpo : Spec.comps (cleaned false e).header.name = pathOf e := rfl
  have hno : (⟨some (cleaned false e).header, (cleaned false e).body⟩ : Node) = nodeOf e := rfl
  have hok : ParsedOK false (cleaned false e) := ⟨⟨e.header.name, rfl, ho⟩, by simp⟩
  obtain ⟨hpl, hnm, S'', h1, h2, h3, h4⟩ := addEntry_exact (n := n) h.sim.inv hok (by
    intro t a b
    rw [hpo] at a b
    cases hh : S.link t with
    | none => rfl
    | some l => exact absurd (hL t (h.sim.link t l hh) a) b)
  rw [hadd] at h1
  injection h1 with h1; injection h1 with h1
  subst h1
  rw [hpo] at hpl hnm h4
  rw [hno] at h4
  have hdirs : ∀ a, a <+: pathOf e → a ≠ pathOf e → S.nonDir a = false := by
    intro a h5 h6
    have hva : Visible a := by
      rcases snoc_cases (pathOf e) with h7 | ⟨p, c, h7⟩
      · rw [h7] at h5 h6; exact absurd (List.prefix_nil.mp h5) h6
      · have := hr.inner
        rw [h7, List.dropLast_concat] at this
        rw [h7] at h5 h6
        exact visible_prefix (Added.strict_prefix_snoc h5 h6) this
    have hv := h.sim.view a hva
    unfold FS.nonDir
    cases hg : S.get? a with
    | none => rfl
    | some nd =>
      simp only
      rw [hg] at hv
      have := hd a h5 h6 nd hv.symm
      rw [isFile_iff] at this
      simpa using this
  have hA : Added S (pathOf e) (nodeOf e) S' := by
    refine ⟨h.wf, h2, ?_, hpl, hr.inner, ⟨_, rfl, hnm⟩, ?_, ?_, ?_, hdirs, ?_⟩
    · intro q
      rw [h4 q (.inl (visible_not_opq hr.inner)), stepped_reg hdirs]
    · intro hroot
      rw [nodeOf_dir]; exact hr.root hroot
    · intro p c h5 h6
      rw [nodeOf_nonDir]; exact hr.mark (marker_last h5 h6)
    · intro p c h5 h6 h7
      have h8 := hr.deep p (c.drop 4) (by rw [h5]; congr 2; exact marker_drop h6) h7
      rw [h5] at h8
      have h9 := (List.append_inj' h8 rfl).2
      simp only [List.cons.injEq, and_true] at h9
      exact h9
    · intro p c h5 h6 h7 h8
      obtain ⟨y, hy⟩ := Option.isSome_iff_exists.mp h8
      have hy2 := h.wf.mark p _ y hy (wh_marker c)
      obtain ⟨hd', hy3⟩ : ∃ hd', y.header = some hd' := by
        unfold Node.nonDir at hy2
        cases e9 : y.header with
        | none => rw [e9] at hy2; simp at hy2
        | some z => exact ⟨z, rfl⟩
      rcases h.origin _ y hd' hy hy3 with ⟨e', he', h9, _⟩ | ⟨d, h9, _⟩
      · rcases hf e' he' p c h9 h5 with h10 | h10
        · exact h6 h10
        · exact h10 ((nodeOf_dir e).mp h7)
      · have h10 := (List.append_inj' h9 rfl).2
        simp only [List.cons.injEq, and_true] at h10
        apply h6
        have h11 : c = ".wh..opq".toList := by
          have : whPrefix ++ c = whPrefix ++ ".wh..opq".toList := h10
          exact List.append_cancel_left this
        rw [h11]; decide
  refine ⟨S', hadd, hA.wfs, ?_, ?_, ?_, ?_⟩
  · rw [List.foldl_append]; exact hsim
  · intro q nd hdr hq hh
    rcases base_cases (hA.cases hq).2 with ⟨a, b⟩ | ⟨a, _, b⟩ | ⟨a, b, c⟩ | ⟨_, _, a⟩
    · exact .inl ⟨e, by simp, a.symm, b⟩
    · cases hg : S.get? q with
      | none => rw [hg] at b; rw [b] at hh; simp at hh
      | some z =>
        rw [hg] at b
        simp only [Option.getD_some] at b
        rw [b] at hh ⊢
        rcases h.origin q z hdr hg hh with ⟨e', h5, h6⟩ | ⟨d, h5, h6, h7⟩
        · exact .inl ⟨e', by simp [h5], h6⟩
        · exact .inr ⟨d, h5, h6, replaced_snoc h7⟩
    · have hb := (hA.cases hq).2
      cases hnf : S.nonDir (pathOf e) with
      | true =>
        refine .inr ⟨pathOf e, a, c, ?_⟩
        have hv := hA.opqDir b
        cases hg : S.get? (pathOf e) with
        | none => unfold FS.nonDir at hnf; rw [hg] at hnf; simp at hnf
        | some z =>
          unfold FS.nonDir at hnf
          rw [hg] at hnf
          simp only at hnf
          obtain ⟨hz, hz2⟩ : ∃ hz, z.header = some hz := by
            unfold Node.nonDir at hnf
            cases e9 : z.header with
            | none => rw [e9] at hnf; simp at hnf
            | some z => exact ⟨z, rfl⟩
          rcases h.origin _ z hz hg hz2 with ⟨e', h5, h6, h7⟩ | ⟨d, h5, _⟩
          · obtain ⟨A, B, hAB⟩ := List.append_of_mem h5
            refine ⟨A, e', B, e, [], by rw [hAB]; simp, h6, rfl, ?_, (nodeOf_dir e).mp b⟩
            rw [← nodeOf_nonDir, ← h7]; exact hnf
          · exact absurd (by rw [h5]; simp) (visible_not_opq hv)
      | false =>
        unfold base at hb
        rw [if_neg (by rw [a]; simp), if_neg (by rw [a]; exact snoc_not_prefix), if_pos (by rw [a]; exact List.prefix_append _ _), b] at hb
        simp only [Bool.false_eq_true, if_false] at hb
        have x : ¬ (q = pathOf e ++ [opqName] ∧ S.nonDir (pathOf e) = true) := by rw [hnf]; simp
        rw [if_neg x] at hb
        rcases h.origin q nd hdr hb hh with ⟨e', h5, h6⟩ | ⟨d, h5, h6, h7⟩
        · exact .inl ⟨e', by simp [h5], h6⟩
        · exact .inr ⟨d, h5, h6, replaced_snoc h7⟩
    · rcases h.origin q nd hdr a hh with ⟨e', h5, h6⟩ | ⟨d, h5, h6, h7⟩
      · exact .inl ⟨e', by simp [h5], h6⟩
      · exact .inr ⟨d, h5, h6, replaced_snoc h7⟩
  · intro d x nd hdr hm ht hh
    refine Classical.byContradiction fun hx => ?_
    obtain ⟨y, hy⟩ := Option.isSome_iff_exists.mp hm
    have hno : ∀ p, d ++ [whPrefix ++ x] ≠ p ++ [opqName] := by
      intro p h5
      have h6 := (List.append_inj' h5 rfl).2
      simp only [List.cons.injEq, and_true] at h6
      have h7 : whPrefix ++ x = whPrefix ++ ".wh..opq".toList := h6
      exact hx (by rw [List.append_cancel_left h7]; decide)
    rcases base_cases (hA.cases hy).2 with ⟨a, _⟩ | ⟨a, b, _⟩ | ⟨a, _⟩ | ⟨_, _, a⟩
    · have hr : removes (pathOf e) (d ++ [x]) := by
        unfold removes
        rw [← a]
        have e1 : (d ++ [whPrefix ++ x]).getLast? = some (whPrefix ++ x) := by simp
        have e2 : ¬ whPrefix ++ x = opqName := fun h5 => hno d (by rw [h5])
        rw [e1]
        simp only [List.dropLast_concat]
        rw [if_pos (wh_marker x), if_neg e2]
        have e3 : (whPrefix ++ x).drop 4 = x := rfl
        rw [e3]; exact List.prefix_refl _
      rw [hA.gone hr] at ht; simp at ht
    · rcases snoc_cases (pathOf e) with h7 | ⟨p, c, h7⟩
      · rw [h7] at a; simpa using List.prefix_nil.mp a
      · have := hA.inner
        rw [h7, List.dropLast_concat] at this
        rw [h7] at a b
        exact this (whPrefix ++ x) ((Added.strict_prefix_snoc a b).subset (by simp)) (wh_marker x)
    · exact hno _ a
    · have hmS : S.has (d ++ [whPrefix ++ x]) := has_of a
      rcases base_cases (hA.cases ht).2 with ⟨a, _⟩ | ⟨a, _, b⟩ | ⟨a, _⟩ | ⟨_, _, a⟩
      · have hr : removes (pathOf e) (d ++ [whPrefix ++ x]) := by
          unfold removes
          rw [← a]
          have e1 : (d ++ [x]).getLast? = some x := by simp
          rw [e1]
          simp only [List.dropLast_concat]
          rw [if_neg hx]; exact List.prefix_refl _
        rw [hA.gone hr] at hy; simp at hy
      · cases hg : S.get? (d ++ [x]) with
        | none => rw [hg] at b; rw [b] at hh; simp at hh
        | some z =>
          rw [hg] at b
          simp only [Option.getD_some] at b
          rw [b] at hh
          exact hx (h.nowh d x z hdr hmS hg hh)
      · have h6 := (List.append_inj' a rfl).2
        simp only [List.cons.injEq, and_true] at h6
        exact hx (by rw [h6]; exact isMarker_opq)
      · exact hx (h.nowh d x nd hdr hmS a hh)
  · intro q x hq hqd hx
    rw [hA.act hq hqd x, List.foldl_append, List.foldl_cons, List.foldl_nil]
    exact apply_at_congr (V := fun _ => Squash.act S q x) (h.act q x hq hqd hx) e

theorem built_all {L : Path → Prop} {n : Nat} : ∀ (es done : List Entry) (S : FS), Built L done S →
    (∀ e ∈ es, outside (clean e.header.name) = false) → (∀ e ∈ es, e.header.typeflag = '2' → L (pathOf e)) →
    (∀ e ∈ es, ∀ p, L p → p <+: pathOf e → p = pathOf e) → (∀ e ∈ es, Regular e) → NoRevival (done ++ es) → Grounded (done ++ es) →
    ∃ S', addEntries (n + 3) S (es.map (cleaned false)) = some (.ok S') ∧ Built L (done ++ es) S' := by
  intro es
  induction es with
  | nil => intro done S h _ _ _ _ _ _; exact ⟨S, rfl, by simpa using h⟩
  | cons e es ih =>
    intro done S h h1 h2 h3 h4 h5 h6
    have h5' := h5
    unfold NoRevival at h5'
    rw [List.pairwise_append] at h5'
    obtain ⟨S1, e1, b1⟩ := built_step (n := n) h (h1 e (by simp)) (h2 e (by simp)) (h3 e (by simp)) (h4 e (by simp))
      (h6 done e es rfl) (fun e' he' => h5'.2.2 e' he' e (by simp))
    have e0 : done ++ e :: es = done ++ [e] ++ es := by simp
    rw [e0] at h5 h6 ⊢
    obtain ⟨S2, e2, b2⟩ := ih (done ++ [e]) S1 b1 (fun x hx => h1 x (by simp [hx])) (fun x hx => h2 x (by simp [hx]))
      (fun x hx => h3 x (by simp [hx])) (fun x hx => h4 x (by simp [hx])) h5 h6
    refine ⟨S2, ?_, b2⟩
    rw [List.map_cons, addEntries, e1, bind_some_ok, e2]

end Squash
