import Verif.Squash.Whole
/-! The squashed layer, applied to a lower file system, acts as the tree it was written from. -/
namespace Squash
open Go Spec

theorem clean_slash {cs : List Str} (h : ∀ c ∈ cs, Plain c) : clean (render false cs ++ "/".toList) = render false cs := by
  unfold clean
  have hr : isRooted (render false cs ++ "/".toList) = false := by
    have h1 := isRooted_render_plain h
    have h2 := render_ne_nil h
    unfold isRooted at h1 ⊢
    cases e : render false cs with
    | nil => exact absurd e h2
    | cons a l => rw [e] at h1; simpa using h1
  rw [hr]
  have : render false cs ++ "/".toList = render false cs ++ '/' :: [] := rfl
  rw [this, split_append]
  have h3 : ∀ l : List Str, cleanElems false (l ++ split '/' []) = cleanElems false l := by
    intro l
    unfold cleanElems
    rw [List.foldl_append]
    simp [split, cleanStep]
  rw [h3, elems_render (plains_clean h false)]

/-- an entry of the output and its node -/
theorem out_entry {S : FS} (hw : WFS S) {p : Path} {e : Entry} (h : e ∈ nodeEntry S p) :
    pathOf e = p ∧ clean e.header.name = render false p ∧
      ∃ nd hd, S.get? p = some nd ∧ nd.header = some hd ∧ e.header.typeflag = hd.typeflag ∧ (Visible p → nodeOf e = nd) := by
  obtain ⟨hd, b, h1, h2⟩ := mem_nodeEntry.mp h
  have hpl := hw.plain p (has_of h1)
  have hk := hw.inv.keys p (has_of h1)
  have hf : p.filter (· ≠ []) = p := by
    rw [List.filter_eq_self]
    intro c hc
    simpa using (hpl c hc).1
  have hn : nodeName p = render false p := by
    rw [nodeName_eq (fun c hc => (hk c hc).1), hf]
  have hc : clean e.header.name = render false p := by
    rw [h2]
    simp only
    rw [hn]
    split
    · exact clean_slash hpl
    · exact clean_render (plains_clean hpl false)
  have hpo : pathOf e = p := by
    unfold pathOf; rw [hc, comps_render hpl]
  refine ⟨hpo, hc, _, hd, h1, rfl, by rw [h2], ?_⟩
  intro hv
  have := hw.name p _ hd hv h1 rfl
  unfold nodeOf
  rw [hc, h2]
  simp only
  congr 2
  rw [← this]


open Classical in
theorem applyAt_covers {V : View} {p : Path} {k : Str} (hk : isMarker k) (nd : Node) {q : Path} (hq : Visible q) :
    applyAt V (p ++ [k]) nd q = if q <+: p then some (dirOr (V q)) else if covers p k q then none else V q := by
  rw [Added.applyAt_marker hk]
  have hne : q ≠ p ++ [k] := fun e => hq k (by rw [e]; simp) hk
  by_cases h1 : q <+: p
  · rw [if_pos ⟨h1.trans (List.prefix_append _ _), hne⟩, if_pos h1]
  · have x : ¬ (q <+: p ++ [k] ∧ q ≠ p ++ [k]) := fun h => h1 (Added.strict_prefix_snoc h.1 h.2)
    rw [if_neg x, if_neg h1]
    have hpq : p ≠ q := fun e => h1 (by rw [e]; exact List.prefix_refl _)
    by_cases hc : covers p k q
    · rw [if_pos hc]
      by_cases ho : k = opqName
      · rw [if_pos ho, if_pos hc.2.1]
      · rw [if_neg ho]
        rcases hc.2.2.2 with a | a
        · exact absurd a ho
        · rw [if_pos a]
    · rw [if_neg hc]
      by_cases ho : k = opqName
      · have y : ¬ p <+: q := fun h2 => hc ⟨hk, h2, hpq, .inl ho⟩
        rw [if_pos ho, if_neg y]
      · have y : ¬ p ++ [k.drop 4] <+: q := fun h2 => hc ⟨hk, (List.prefix_append _ _).trans h2, hpq, .inr h2⟩
        rw [if_neg ho, if_neg y]

/-- a list of effects on one path: becoming a directory, removal, or nothing; the removals come first -/
theorem foldl_effects {q : Path} (inside covering : Entry → Prop) :
    ∀ (es : List Entry) (V : View), es.Pairwise (fun a b => inside a → ¬ covering b) →
    (∀ e ∈ es, (inside e ∧ ¬ covering e ∧ ∀ V : View, apply V e q = some (dirOr (V q))) ∨
      (¬ inside e ∧ covering e ∧ ∀ V : View, apply V e q = none) ∨ (¬ inside e ∧ ¬ covering e ∧ ∀ V : View, apply V e q = V q)) →
    ((∃ e ∈ es, inside e) → (∃ e ∈ es, covering e) → es.foldl apply V q = some (dirOr none)) ∧
    ((∃ e ∈ es, inside e) → ¬ (∃ e ∈ es, covering e) → es.foldl apply V q = some (dirOr (V q))) ∧
    (¬ (∃ e ∈ es, inside e) → (∃ e ∈ es, covering e) → es.foldl apply V q = none) ∧
    (¬ (∃ e ∈ es, inside e) → ¬ (∃ e ∈ es, covering e) → es.foldl apply V q = V q) := by
  intro es
  induction es with
  | nil => intro V _ _; simp
  | cons e es ih =>
    intro V hp he
    rw [List.pairwise_cons] at hp
    obtain ⟨i1, i2, i3, i4⟩ := ih (apply V e) hp.2 (fun x hx => he x (by simp [hx]))
    rw [List.foldl_cons]
    rcases he e (by simp) with ⟨h1, h2, h3⟩ | ⟨h1, h2, h3⟩ | ⟨h1, h2, h3⟩
    · have hnc : ¬ ∃ x ∈ es, covering x := by rintro ⟨x, hx, hc⟩; exact hp.1 x hx h1 hc
      have hnc' : ¬ ∃ x ∈ e :: es, covering x := by
        rintro ⟨x, hx, hc⟩
        rcases List.mem_cons.mp hx with rfl | hx
        · exact h2 hc
        · exact hnc ⟨x, hx, hc⟩
      refine ⟨fun _ h => absurd h hnc', fun _ _ => ?_, fun h _ => absurd ⟨e, by simp, h1⟩ h, fun h _ => absurd ⟨e, by simp, h1⟩ h⟩
      by_cases hi : ∃ x ∈ es, inside x
      · rw [i2 hi hnc, h3]
        exact congrArg some (Added.dirOr_idem (V q))
      · rw [i4 hi hnc, h3]
    · have hin : (∃ x ∈ e :: es, inside x) ↔ ∃ x ∈ es, inside x := by
        constructor
        · rintro ⟨x, hx, hc⟩
          rcases List.mem_cons.mp hx with rfl | hx
          · exact absurd hc h1
          · exact ⟨x, hx, hc⟩
        · rintro ⟨x, hx, hc⟩; exact ⟨x, by simp [hx], hc⟩
      rw [hin]
      rw [h3] at i2 i4
      refine ⟨fun hi _ => ?_, fun _ h => absurd ⟨e, by simp, h2⟩ h, fun hi _ => ?_, fun _ h => absurd ⟨e, by simp, h2⟩ h⟩
      · by_cases hc : ∃ x ∈ es, covering x
        · exact i1 hi hc
        · exact i2 hi hc
      · by_cases hc : ∃ x ∈ es, covering x
        · exact i3 hi hc
        · exact i4 hi hc
    · have key : ∀ P : Entry → Prop, ¬ P e → ((∃ x ∈ e :: es, P x) ↔ ∃ x ∈ es, P x) := by
        intro P hP
        constructor
        · rintro ⟨x, hx, hc⟩
          rcases List.mem_cons.mp hx with rfl | hx
          · exact absurd hc hP
          · exact ⟨x, hx, hc⟩
        · rintro ⟨x, hx, hc⟩; exact ⟨x, by simp [hx], hc⟩
      rw [key inside h1, key covering h2]
      rw [h3] at i2 i4
      exact ⟨i1, i2, i3, i4⟩

theorem header_of_nonDir {nd : Node} (h : nd.nonDir = true) : ∃ hd, nd.header = some hd := by
  unfold Node.nonDir at h
  cases e : nd.header with
  | none => rw [e] at h; simp at h
  | some z => exact ⟨z, rfl⟩

theorem entry_of_header {S : FS} {p : Path} {nd : Node} {hd : Header} (h : S.get? p = some nd) (hh : nd.header = some hd) :
    ∃ e, e ∈ nodeEntry S p := by
  obtain ⟨h1, b⟩ := nd
  simp only at hh
  subst hh
  exact ⟨_, mem_nodeEntry.mpr ⟨hd, b, h, rfl⟩⟩

/-- below a node without a header there is one with a header -/
theorem nil_has_header {S : FS} (hw : WFS S) : ∀ (m : Nat) (q : Path) (nd : Node), depth S - q.length ≤ m → q ≠ [] →
    S.get? q = some nd → nd.header = none → ∃ r nd' hd, q <+: r ∧ q ≠ r ∧ S.get? r = some nd' ∧ nd'.header = some hd := by
  intro m
  induction m with
  | zero =>
    intro q nd hm _ hq _
    have := lt_depth (has_of hq)
    omega
  | succ m ih =>
    intro q nd hm hne hq hn
    obtain ⟨c, hc⟩ := hw.nil q nd hq hn hne
    obtain ⟨y, hy⟩ := Option.isSome_iff_exists.mp hc
    cases hh : y.header with
    | some hd => exact ⟨q ++ [c], y, hd, List.prefix_append _ _, by simp, hy, hh⟩
    | none =>
      have := lt_depth (has_of hq)
      obtain ⟨r, nd', hd, h1, h2, h3, h4⟩ := ih (q ++ [c]) y (by simp; omega) (by simp) hy hh
      refine ⟨r, nd', hd, (List.prefix_append _ _).trans h1, ?_, h3, h4⟩
      intro e
      rw [← e] at h1
      exact snoc_not_prefix h1

theorem inOrder_pairwise {R : Entry → Entry → Prop} {l : List Entry} (h : l.Pairwise R) :
    (inOrder l).Pairwise (fun a b => R a b ∨ isMarkerEntry a ∧ ¬ isMarkerEntry b) := by
  unfold inOrder
  rw [List.pairwise_append]
  refine ⟨(h.filter _).imp (fun h => .inl h), (h.filter _).imp (fun h => .inl h), ?_⟩
  intro a ha b hb
  rw [List.mem_filter] at ha hb
  right
  exact ⟨by simpa using ha.2, by simpa using hb.2⟩

/-- a marker is at a path ending in it -/
theorem marker_path {e : Entry} (h : isMarkerEntry e) : ∃ p k, pathOf e = p ++ [k] ∧ isMarker k := by
  obtain ⟨c, h1, h2⟩ := h
  rcases snoc_cases (pathOf e) with h3 | ⟨p, k, h3⟩
  · rw [h3] at h1; simp at h1
  · rw [h3] at h1; simp at h1; exact ⟨p, k, h3, by rw [h1]; exact h2⟩

theorem ord_of_not_marker {e : Entry} (h : ¬ isMarkerEntry e) : Added.Ord (pathOf e) :=
  fun _ _ h1 h2 => h (marker_last h1 h2)

theorem apply_ord {V : View} {e : Entry} (hm : ¬ isMarkerEntry e) (q : Path) : apply V e q =
    if q <+: pathOf e ∧ q ≠ pathOf e then some (dirOr (V q)) else if q = pathOf e then some (nodeOf e)
    else if pathOf e <+: q ∧ isFile (nodeOf e) then none else V q := by
  unfold apply; exact Added.applyAt_ord (ord_of_not_marker hm) (nodeOf e) q

open Classical in
theorem apply_cov {V : View} {e : Entry} {p : Path} {k : Str} (h1 : pathOf e = p ++ [k]) (h2 : isMarker k) {q : Path} (hq : Visible q) :
    apply V e q = if q <+: p then some (dirOr (V q)) else if covers p k q then none else V q := by
  unfold apply; rw [h1]; exact applyAt_covers h2 (nodeOf e) hq

theorem out_act {srt : (Str → Str → Bool) → List Str → List Str} (hs : SortSlice srt)
    {order : Path → List Str → List Str} (ho : PermOrder order) {S : FS} (hw : WFS S) {q : Path} (hq : Visible q)
    (x : Option Node) (hx : q = [] → ∃ nd, x = some nd ∧ nd.nonDir = false) :
    (inOrder (writeTo srt order S (depth S) [])).foldl apply (fun _ => x) q = act S q x := by
  generalize hout : writeTo srt order S (depth S) [] = out
  have hmem : ∀ e, e ∈ out ↔ ∃ q, e ∈ nodeEntry S q := by
    intro e; rw [← hout]; exact mem_out hs ho hw.inv
  have hpair : out.Pairwise (fun a b => before (pathOf a) (pathOf b)) := by
    have h1 := writeTo_pairwise hs ho hw.inv (fun q hq c hc => (hw.plain q hq c hc).1) (depth S) []
    rw [hout] at h1
    refine List.Pairwise.imp_of_mem ?_ h1
    intro a b ha hb hab
    obtain ⟨p, hp⟩ := (hmem a).mp ha
    obtain ⟨r, hr⟩ := (hmem b).mp hb
    have key : ∀ {e p}, e ∈ nodeEntry S p → comps e.header.name = pathOf e := by
      intro e p he
      rw [(out_entry hw he).1, comps_nodeEntry hw.inv he, List.filter_eq_self]
      intro c hc
      simpa using (hw.plain p (has_of_nodeEntry he) c hc).1
    rw [key hp, key hr] at hab
    exact hab
  have hnode : ∀ e ∈ out, ∃ nd hd, S.get? (pathOf e) = some nd ∧ nd.header = some hd ∧ e.header.typeflag = hd.typeflag ∧
      (Visible (pathOf e) → nodeOf e = nd) := by
    intro e he
    obtain ⟨p, hp⟩ := (hmem e).mp he
    obtain ⟨h1, _, h2⟩ := out_entry hw hp
    rw [h1]; exact h2
  have hvis : ∀ e ∈ out, ¬ isMarkerEntry e → Visible (pathOf e) := by
    intro e he hm
    obtain ⟨nd, hd, h1, _⟩ := hnode e he
    rcases snoc_cases (pathOf e) with h3 | ⟨p, k, h3⟩
    · rw [h3]; intro c hc; simp at hc
    · rw [h3, visible_snoc]
      refine ⟨hw.inner p k (by rw [← h3]; exact has_of h1), fun hk => hm (marker_last h3 hk)⟩
  have hfile : ∀ e ∈ out, ¬ isMarkerEntry e → isFile (nodeOf e) → S.nonDir (pathOf e) = true := by
    intro e he hm hf
    obtain ⟨nd, hd, h1, _, _, h2⟩ := hnode e he
    unfold FS.nonDir
    rw [h1, ← h2 (hvis e he hm)]
    exact (isFile_iff _).mp hf
  have hex : ∀ p nd hd, S.get? p = some nd → nd.header = some hd → ∃ e ∈ out, pathOf e = p := by
    intro p nd hd h1 h2
    obtain ⟨e, he⟩ := entry_of_header h1 h2
    exact ⟨e, (hmem e).mpr ⟨p, he⟩, (out_entry hw he).1⟩
  unfold act
  cases hg : S.get? q with
  | some nd =>
    simp only
    cases hh : nd.header with
    | some hd =>
      simp only [Option.isSome_some, if_true]
      obtain ⟨e, he, hep⟩ := hex q nd hd hg hh
      have hm : ¬ isMarkerEntry e := by
        intro h
        obtain ⟨p, k, h1, h2⟩ := marker_path h
        rw [hep] at h1
        exact hq k (by rw [h1]; simp) h2
      have hen : nodeOf e = nd := by
        obtain ⟨nd', _, h1, _, _, h2⟩ := hnode e he
        rw [hep] at h1 h2
        rw [hg] at h1; injection h1 with h1
        rw [h1]; exact h2 hq
      have hin : e ∈ out.filter (fun e => ¬ isMarkerEntry e) := by
        rw [List.mem_filter]; exact ⟨he, by simpa using hm⟩
      obtain ⟨A, B, hAB⟩ := List.append_of_mem hin
      have hB : ∀ f ∈ B, f ∈ out ∧ ¬ isMarkerEntry f := by
        intro f hf
        have : f ∈ out.filter (fun e => ¬ isMarkerEntry e) := by rw [hAB]; simp [hf]
        rw [List.mem_filter] at this
        simpa using this
      unfold inOrder
      rw [hAB, ← List.append_assoc, List.foldl_append, List.foldl_cons]
      have hstart : ∀ V : View, apply V e q = some nd := by
        intro V; rw [← hep, ← hen]; exact apply_self hm
      have hgo : ∀ (B : List Entry), (∀ f ∈ B, f ∈ out ∧ ¬ isMarkerEntry f) → ∀ V : View, V q = some nd → B.foldl apply V q = some nd := by
        intro B
        induction B with
        | nil => intro _ V h; exact h
        | cons f B ih =>
          intro h V hV
          refine ih (fun g hg => h g (by simp [hg])) _ ?_
          obtain ⟨hf1, hf2⟩ := h f (by simp)
          unfold apply
          rw [Added.applyAt_ord (ord_of_not_marker hf2), hV]
          by_cases h1 : q <+: pathOf f ∧ q ≠ pathOf f
          · rw [if_pos h1]
            have hnd : nd.nonDir = false := by
              cases h2 : nd.nonDir with
              | false => rfl
              | true =>
                obtain ⟨nd', _, h3, _⟩ := hnode f hf1
                have := hw.inv.noDesc (hw.inv.leaf q (by unfold FS.nonDir; rw [hg]; exact h2)) h1.1 (Ne.symm h1.2)
                rw [this] at h3; simp at h3
            rw [dirOr_dir hnd]
          · rw [if_neg h1]
            by_cases h2 : q = pathOf f
            · rw [if_pos h2]
              obtain ⟨nd', _, h3, _, _, h4⟩ := hnode f hf1
              rw [← h2, hg] at h3; injection h3 with h3
              rw [h4 (hvis f hf1 hf2), h3]
            · rw [if_neg h2]
              have y : ¬ (pathOf f <+: q ∧ isFile (nodeOf f)) := by
                rintro ⟨h3, h4⟩
                have := hw.inv.noDesc (hw.inv.leaf _ (hfile f hf1 hf2 h4)) h3 h2
                rw [hg] at this; simp at this
              rw [if_neg y]
      exact hgo B hB _ (hstart _)
    | none =>
      simp only [Option.isSome_none, Bool.false_eq_true, if_false]
      have hnf : ¬ fileAbove S q := by
        rintro ⟨d, h1, h2, h3⟩
        have := hw.inv.noDesc (hw.inv.leaf d h1) h2 (Ne.symm h3)
        rw [hg] at this; simp at this
      have hne : ∀ e ∈ out, pathOf e ≠ q := by
        intro e he h1
        obtain ⟨nd', hd, h2, h3, _⟩ := hnode e he
        rw [h1, hg] at h2; injection h2 with h2
        rw [← h2, hh] at h3; simp at h3
      have heff := foldl_effects (q := q) (fun e => q <+: pathOf e) (fun e => ∃ p k, pathOf e = p ++ [k] ∧ covers p k q)
        (inOrder out) (fun _ => x) (by
          refine List.Pairwise.imp_of_mem ?_ (inOrder_pairwise hpair)
          rintro a b ha hb hab h1 ⟨p, k, h2, h3⟩
          rcases hab with hab | hab
          · rw [h2] at hab
            obtain ⟨t, ht⟩ := h1
            obtain ⟨s, hs'⟩ := h3.2.1
            cases s with
            | nil => simp at hs'; exact h3.2.2.1 hs'
            | cons c s =>
              have hc : ¬ isMarker c := hq c (by rw [← hs']; simp)
              rw [← ht, ← hs', List.append_assoc, before_append, List.cons_append] at hab
              rcases hab with hab | hab
              · rcases hab with hab | hab
                · exact hc hab.1
                · exact hc (hab.1.mpr h3.1)
              · exact hc (by rw [hab.1]; exact h3.1)
          · exact hab.2 (marker_last h2 h3.1)) (by
          intro e he
          have he' := mem_inOrder.mp he
          by_cases hm : isMarkerEntry e
          · obtain ⟨p, k, h1, h2⟩ := marker_path hm
            have hco : (∃ p k, pathOf e = p ++ [k] ∧ covers p k q) ↔ covers p k q := by
              constructor
              · rintro ⟨p', k', h3, h4⟩
                rw [h1] at h3
                have h5 := List.append_inj' h3 rfl
                have h6 : k = k' := by simpa using h5.2
                rw [h5.1, h6]; exact h4
              · intro h; exact ⟨p, k, h1, h⟩
            have hqe : q ≠ pathOf e := fun h => hne e he' h.symm
            have hin : q <+: pathOf e ↔ q <+: p := by
              rw [h1] at hqe ⊢
              exact ⟨fun h => Added.strict_prefix_snoc h hqe, fun h => h.trans (List.prefix_append _ _)⟩
            rw [hco, hin]
            have happ := fun V : View => apply_cov (V := V) h1 h2 hq
            by_cases h3 : q <+: p
            · have hnc : ¬ covers p k q := fun h => h.2.2.1 (h.2.1.eq_of_length_le h3.length_le)
              exact .inl ⟨h3, hnc, fun V => by rw [happ V, if_pos h3]⟩
            · by_cases h4 : covers p k q
              · exact .inr (.inl ⟨h3, h4, fun V => by rw [happ V, if_neg h3, if_pos h4]⟩)
              · exact .inr (.inr ⟨h3, h4, fun V => by rw [happ V, if_neg h3, if_neg h4]⟩)
          · have hnc : ¬ ∃ p k, pathOf e = p ++ [k] ∧ covers p k q := by
              rintro ⟨p, k, h1, h2⟩; exact hm (marker_last h1 h2.1)
            have happ := fun V : View => apply_ord (V := V) hm q
            have h2 : ¬ q = pathOf e := fun h => hne e he' h.symm
            by_cases h1 : q <+: pathOf e
            · exact .inl ⟨h1, hnc, fun V => by rw [happ V, if_pos ⟨h1, h2⟩]⟩
            · have y : ¬ (q <+: pathOf e ∧ q ≠ pathOf e) := fun h => h1 h.1
              have z : ¬ (pathOf e <+: q ∧ isFile (nodeOf e)) := by
                rintro ⟨h3, h4⟩
                exact hnf ⟨pathOf e, hfile e he' hm h4, h3, Ne.symm h2⟩
              exact .inr (.inr ⟨h1, hnc, fun V => by rw [happ V, if_neg y, if_neg h2, if_neg z]⟩))
      have hcov : (∃ e ∈ inOrder out, ∃ p k, pathOf e = p ++ [k] ∧ covers p k q) ↔ masked S q := by
        constructor
        · rintro ⟨e, he, p, k, h1, h2⟩
          obtain ⟨nd', _, h3, _⟩ := hnode e (mem_inOrder.mp he)
          exact .inl ⟨p, k, by rw [← h1]; exact has_of h3, h2⟩
        · rintro (⟨p, k, h1, h2⟩ | h)
          · obtain ⟨y, hy⟩ := Option.isSome_iff_exists.mp h1
            obtain ⟨hd, hy2⟩ := header_of_nonDir (hw.mark p k y hy h2.1)
            obtain ⟨e, he, hep⟩ := hex _ y hd hy hy2
            exact ⟨e, mem_inOrder.mpr he, p, k, hep, h2⟩
          · exact absurd h hnf
      rw [hcov] at heff
      obtain ⟨e1, e2, e3, e4⟩ := heff
      by_cases hin : ∃ e ∈ inOrder out, q <+: pathOf e
      · by_cases hmk : masked S q
        · rw [if_pos hmk]; exact e1 hin hmk
        · rw [if_neg hmk]; exact e2 hin hmk
      · by_cases hq0 : q = []
        · have hmk : ¬ masked S q := by
            rintro (⟨p, k, _, h⟩ | h)
            · rw [hq0] at h
              exact h.2.2.1 (List.prefix_nil.mp h.2.1)
            · exact hnf h
          obtain ⟨nd', h1, h2⟩ := hx hq0
          rw [if_neg hmk, e4 hin hmk, h1, dirOr_dir h2]
        · obtain ⟨r, nd', hd, h1, h2, h3, h4⟩ := nil_has_header hw _ q nd (Nat.le_refl _) hq0 hg hh
          obtain ⟨e, he, hep⟩ := hex r nd' hd h3 h4
          exact absurd ⟨e, mem_inOrder.mpr he, by rw [hep]; exact h1⟩ hin
  | none =>
    simp only
    have hni : ∀ e ∈ out, ¬ q <+: pathOf e := by
      intro e he h
      obtain ⟨nd', _, h3, _⟩ := hnode e he
      obtain ⟨t, ht⟩ := h
      rw [← ht] at h3
      have := hw.inv.prefix (has_of h3)
      unfold FS.has at this
      rw [hg] at this; simp at this
    have hcovdec : ∀ e ∈ out, (masked S q ∧ ∀ V : View, apply V e q = none) ∨ (∀ V : View, apply V e q = V q) := by
      intro e he
      by_cases hm : isMarkerEntry e
      · obtain ⟨p, k, h1, h2⟩ := marker_path hm
        have happ := fun V : View => apply_cov (V := V) h1 h2 hq
        have h3 : ¬ q <+: p := by
          intro h; exact hni e he (by rw [h1]; exact h.trans (List.prefix_append _ _))
        by_cases h4 : covers p k q
        · obtain ⟨nd', _, h5, _⟩ := hnode e he
          exact .inl ⟨.inl ⟨p, k, by rw [← h1]; exact has_of h5, h4⟩, fun V => by rw [happ V, if_neg h3, if_pos h4]⟩
        · exact .inr fun V => by rw [happ V, if_neg h3, if_neg h4]
      · have happ := fun V : View => apply_ord (V := V) hm q
        have h1 := hni e he
        have h2 : ¬ q = pathOf e := fun h => h1 (by rw [h]; exact List.prefix_refl _)
        have y : ¬ (q <+: pathOf e ∧ q ≠ pathOf e) := fun h => h1 h.1
        by_cases z : pathOf e <+: q ∧ isFile (nodeOf e)
        · exact .inl ⟨.inr ⟨pathOf e, hfile e he hm z.2, z.1, Ne.symm h2⟩, fun V => by rw [happ V, if_neg y, if_neg h2, if_pos z]⟩
        · exact .inr fun V => by rw [happ V, if_neg y, if_neg h2, if_neg z]
    by_cases hmk : masked S q
    · rw [if_pos hmk]
      -- an entry that removes `q`
      obtain ⟨e, he, hr⟩ : ∃ e ∈ out, ∀ V : View, apply V e q = none := by
        rcases hmk with ⟨p, k, h1, h2⟩ | ⟨d, h1, h2, h3⟩
        · obtain ⟨y, hy⟩ := Option.isSome_iff_exists.mp h1
          obtain ⟨hd, hy2⟩ := header_of_nonDir (hw.mark p k y hy h2.1)
          obtain ⟨e, he, hep⟩ := hex _ y hd hy hy2
          refine ⟨e, he, fun V => ?_⟩
          have h3 : ¬ q <+: p := fun h => hni e he (by rw [hep]; exact h.trans (List.prefix_append _ _))
          unfold apply
          rw [hep, applyAt_covers h2.1 (nodeOf e) hq, if_neg h3, if_pos h2]
        · cases hgd : S.get? d with
          | none => unfold FS.nonDir at h1; rw [hgd] at h1; simp at h1
          | some y =>
            unfold FS.nonDir at h1
            rw [hgd] at h1
            obtain ⟨hd, hy2⟩ := header_of_nonDir h1
            obtain ⟨e, he, hep⟩ := hex _ y hd hgd hy2
            have hvd := visible_prefix h2 hq
            have hm : ¬ isMarkerEntry e := by
              intro h
              obtain ⟨p, k, h5, h6⟩ := marker_path h
              rw [hep] at h5
              exact hvd k (by rw [h5]; simp) h6
            obtain ⟨nd', _, h7, _, _, h8⟩ := hnode e he
            rw [hep] at h7 h8
            rw [hgd] at h7; injection h7 with h7
            have h9 := h8 hvd
            refine ⟨e, he, fun V => ?_⟩
            unfold apply
            rw [Added.applyAt_ord (ord_of_not_marker hm), hep, h9, ← h7]
            have y1 : ¬ (q <+: d ∧ q ≠ d) := fun h => h3 (h2.eq_of_length_le h.1.length_le)
            rw [if_neg y1, if_neg (Ne.symm h3), if_pos ⟨h2, (isFile_iff _).mpr h1⟩]
      obtain ⟨A, B, hAB⟩ := List.append_of_mem (mem_inOrder.mpr he)
      rw [hAB, List.foldl_append, List.foldl_cons]
      refine foldl_absent _ _ ?_ (hr _)
      intro f hf
      exact hni f (mem_inOrder.mp (by rw [hAB]; simp [hf]))
    · rw [if_neg hmk]
      have hgo : ∀ (B : List Entry), (∀ f ∈ B, f ∈ out) → ∀ V : View, B.foldl apply V q = V q := by
        intro B
        induction B with
        | nil => intro _ V; rfl
        | cons f B ih =>
          intro h V
          rw [List.foldl_cons, ih (fun g hg => h g (by simp [hg]))]
          rcases hcovdec f (h f (by simp)) with h1 | h1
          · exact absurd h1.1 hmk
          · exact h1 V
      exact hgo _ (fun f hf => mem_inOrder.mp hf) _

end Squash
