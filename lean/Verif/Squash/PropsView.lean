import Verif.Squash.View
/-! C66 and C67: which version of a path is visible after loading a stack of layers. -/
namespace Squash
open Go Spec

instance (S : FS) (p : Path) : Decidable (S.has p) := inferInstanceAs (Decidable (_ = true))

/-! ### looking up without creating -/

theorem get_find {n : Nat} {b : Bool} {S : FS} {d : Path} {c : Str} (hi : Inv b S) (hl : S.link d = none) (hc : Plain c) :
    get (n + 1) S d c false false = if S.has (d ++ [c]) then some (.ok (S, d ++ [c])) else some (.error ()) := by
  have e0 : get (n + 1) S d c false false =
      (makeDir (fun S f => get n S f opqName true true) false S d).bind fun T => (child false T d c).bind fun x => some (.ok x) := by
    rw [get]
    simp only
    rw [if_neg (show c ≠ "..".toList from hc.2.2.1), if_neg (show c ≠ ".".toList from hc.2.1), enter_dir hl, bind_some_ok]
    generalize makeDir (fun S f => get n S f opqName true true) false S d = m
    match m with
    | none => rfl
    | some (.error _) => rfl
    | some (.ok T) => rfl
  rw [e0]
  cases hn : S.nonDir d with
  | false =>
    rw [makeDir_dir hn, bind_some_ok]
    by_cases h : S.has (d ++ [c])
    · rw [if_pos h, child_old h]; rfl
    · rw [if_neg h]
      unfold child
      rw [not_has.mp h]; rfl
  | true =>
    rw [if_neg (not_has.mpr (hi.leaf d hn c))]
    unfold makeDir
    rw [hn]; rfl

theorem walk_find {n : Nat} {b : Bool} {S : FS} (hi : Inv b S) : ∀ (cs : List Str) (d : Path), cs ≠ [] → (∀ c ∈ cs, Plain c) →
    (∀ t, t <+: cs → t ≠ cs → S.link (d ++ t) = none) →
    walk (fun S d c fl => get (n + 1) S d c false fl) S d cs false =
      if S.has (d ++ cs) then some (.ok (S, d ++ cs)) else some (.error ()) := by
  intro cs
  induction cs with
  | nil => intro d h; exact absurd rfl h
  | cons c cs ih =>
    intro d _ hp hl
    have hld : S.link d = none := by simpa using hl [] (by simp) (by simp)
    have hg := get_find (n := n) hi hld (hp c (by simp))
    cases cs with
    | nil => exact hg
    | cons c2 cs =>
      rw [walk]
      · rw [hg]
        by_cases h : S.has (d ++ [c])
        · rw [if_pos h, bind_some_ok]
          have e : d ++ c :: c2 :: cs = d ++ [c] ++ c2 :: cs := by simp
          rw [e]
          refine ih (d ++ [c]) (by simp) (fun x hx => hp x (by simp [hx])) ?_
          intro t h1 h2
          have := hl (c :: t) (by simpa using h1) (by simpa using h2)
          rw [List.append_assoc]; exact this
        · rw [if_neg h]
          have : ¬ S.has (d ++ c :: c2 :: cs) := by
            intro h2
            apply h
            have e : d ++ c :: c2 :: cs = d ++ [c] ++ c2 :: cs := by simp
            rw [e] at h2
            exact hi.prefix h2
          rw [if_neg this]; rfl
      · simp

theorem valid_render {name : Str} (h : validPath name = true) :
    name = render false (comps name) ∧ ∀ c ∈ comps name, Plain c := by
  unfold validPath at h
  rw [Bool.or_eq_true, decide_eq_true_eq] at h
  rcases h with h | h
  · rw [h]; exact ⟨rfl, fun c hc => by rw [show comps ".".toList = [] by decide] at hc; simp at hc⟩
  · rw [List.all_eq_true] at h
    have hp : ∀ c ∈ split '/' name, Plain c := by
      intro c hc
      have := h c hc
      simp only [ne_eq, Bool.and_eq_true, decide_eq_true_eq] at this
      exact ⟨this.1.1, this.1.2, this.2, split_no_sep hc⟩
    have e : comps name = split '/' name := by
      unfold comps
      rw [List.filter_eq_self]
      intro c hc
      have := hp c hc
      simpa using ⟨this.1, this.2.1⟩
    rw [e]
    refine ⟨?_, hp⟩
    unfold render
    simp only [Bool.false_eq_true, if_false]
    have hne : split '/' name ≠ [] := by
      intro h2
      have := join_split '/' name
      rw [h2] at this
      rw [← this] at h2
      exact absurd h2 (by decide)
    split
    · rename_i h3; exact absurd h3 hne
    · rw [join_split]

/-- `fsGet` without following the last link, for a path whose parents are not symlinks -/
theorem fsGet_find {n : Nat} {b : Bool} {S : FS} (hi : Inv b S) {name : Str} (hv : validPath name = true)
    (hl : ∀ t, t <+: comps name → t ≠ comps name → S.link t = none) :
    fsGet (n + 2) S [] name false false =
      if S.has (comps name) then some (.ok (S, comps name)) else some (.error ()) := by
  obtain ⟨er, hp⟩ := valid_render hv
  generalize hcs : comps name = cs at *
  unfold fsGet fsGetWith
  simp only
  have ecl : clean name = render false cs := by rw [er, clean_render (plains_clean hp false)]
  rw [ecl, isRooted_render_plain hp, if_neg (by simp), split_render (fun c hc => (hp c hc).2.2.2)]
  simp only [Bool.false_eq_true, if_false]
  by_cases hc : cs = []
  · rw [if_pos hc, walk, get, hc, if_pos hi.root]
    simp only [if_neg (show (['.'] : Str) ≠ "..".toList by decide), if_pos (show (['.'] : Str) = ".".toList from rfl),
      bind_some_ok, Bool.false_eq_true, if_false]
  · rw [if_neg hc]
    exact walk_find (n := n + 1) hi cs [] hc hp (by simpa using hl)

/-- `Open` for a path whose parents are not symlinks -/
theorem open_exact {n : Nat} {b : Bool} {S : FS} (hi : Inv b S) {name : Str} (hv : validPath name = true)
    (hl : ∀ t, t <+: comps name → t ≠ comps name → S.link t = none) :
    (∀ nd, S.get? (comps name) = some nd → nd.link = none → openFile (n + 2) S name = some (.ok (comps name, comps name))) ∧
    (S.get? (comps name) = none → openFile (n + 2) S name = some (.error ())) := by
  have hf := fsGet_find (n := n) hi hv hl
  unfold openFile
  rw [hv]
  simp only [Bool.not_true, Bool.false_eq_true, if_false]
  rw [hf]
  constructor
  · intro nd h1 h2
    rw [if_pos (has_of h1), bind_some_ok]
    rw [get]
    simp only [if_neg (show ".".toList ≠ "..".toList by decide), if_true, bind_some_ok]
    rw [resolve_nolink (by unfold FS.link; rw [h1]; exact h2)]
    rfl
  · intro h1
    rw [if_neg (not_has.mpr h1)]; rfl

/-! ### the view -/

theorem load_sim {oc : Bool} {layers : List (List Entry)} (hin : ∀ l ∈ layers, ∀ e ∈ l, ¬ Outside e.header.name)
    (hl : NoThrough layers) {n : Nat} (hn : 3 ≤ n) :
    ∃ S, loadLayers n layers oc = some (.ok S) ∧
      Sim (fun p => ∃ l ∈ layers, ∃ e ∈ l, e.header.typeflag = '2' ∧ pathOf e = p) S (applyLayers (layers.map (·.map (dropBody oc)))) := by
  obtain ⟨k, rfl⟩ : ∃ k, n = k + 3 := ⟨n - 3, by omega⟩
  refine loadFrom_sim (n := k) (oc := oc) layers emptyFS emptyView (sim_empty _) ?_ ?_ ?_
  · intro l h1 e h2
    have := hin l h1 e h2
    rw [← outside_iff] at this
    simpa using this
  · intro l h1 e h2 h3
    exact ⟨l, h1, e, h2, h3, rfl⟩
  · rintro l h1 e h2 p ⟨l', h1', e', h2', h3, rfl⟩ h4
    exact hl l' h1' e' h2' h3 l h1 e h2 h4

/-- **C66** (as a whole).  Loading layers whose names are inside the root, with no entry below a symlink, always
succeeds, and at every path without whiteout markers the file system has exactly what the specification's view has. -/
theorem C66_view (layers : List (List Entry)) (hin : ∀ l ∈ layers, ∀ e ∈ l, ¬ Outside e.header.name) (hl : NoThrough layers)
    (n : Nat) (hn : 3 ≤ n) :
    (∃ S, loadLayers n layers false = some (.ok S) ∧ ∀ q, Visible q → S.get? q = applyLayers layers q) ∧
    (∃ S, loadLayers n layers true = some (.ok S) ∧ ∀ q, Visible q → S.get? q = applyLayers (layers.map (·.map strip)) q) := by
  obtain ⟨S, h1, h2⟩ := load_sim (oc := false) hin hl hn
  obtain ⟨T, h3, h4⟩ := load_sim (oc := true) hin hl hn
  refine ⟨⟨S, h1, ?_⟩, ⟨T, h3, h4.view⟩⟩
  intro q hq
  rw [h2.view q hq]
  have : layers.map (·.map (dropBody false)) = layers := by
    have e : dropBody false = id := by funext e; rfl
    rw [e]; simp
  rw [this]

/-- the entry leaves the node `nd` at `p` alone: it is not for `p`, nothing is put below a file, no ancestor is replaced
by a file, and no whiteout or opaque marker covers `p` -/
structure Spec.Leaves (e : Entry) (p : List Str) (nd : Node) : Prop where
  other : pathOf e ≠ p
  below : isFile nd → ¬ p <+: pathOf e
  above : isFile (nodeOf e) → ¬ isMarkerEntry e → ¬ pathOf e <+: p
  opq : ∀ d, pathOf e = d ++ [".wh..wh..opq".toList] → d <+: p → d = p
  whiteout : ∀ d x, pathOf e = d ++ [".wh.".toList ++ x] → ¬ d ++ [x] <+: p

/-- what happens at one path only depends on what was there -/
theorem apply_at_congr {V W : View} {q : Path} (h : V q = W q) (e : Entry) : apply V e q = apply W e q := by
  unfold apply applyAt; rw [h]

theorem foldl_at_congr {q : Path} : ∀ (es : List Entry) (V W : View), V q = W q → es.foldl apply V q = es.foldl apply W q := by
  intro es
  induction es with
  | nil => intro V W h; exact h
  | cons e es ih => intro V W h; exact ih _ _ (apply_at_congr h e)

theorem apply_leaves {V : View} {e : Entry} {p : Path} {nd : Node} (h : Leaves e p nd) (hv : V p = some nd) :
    apply V e p = some nd := by
  unfold apply applyAt
  rw [hv]
  by_cases h1 : p <+: pathOf e ∧ p ≠ pathOf e
  · rw [if_pos h1]
    unfold asDir
    simp only
    rw [if_neg (fun h2 => h.below h2 h1.1)]
  · rw [if_neg h1]
    rcases snoc_cases (pathOf e) with h2 | ⟨d, c, h2⟩
    · rw [h2]
      simp only [List.getLast?_nil]
      have x : ¬ (p = []) := fun h3 => h.other (by rw [h2, h3])
      have hm : ¬ isMarkerEntry e := by rintro ⟨c, h3, _⟩; rw [h2] at h3; simp at h3
      have y : ¬ ([] <+: p ∧ isFile (nodeOf e)) := by
        rintro ⟨a, b⟩
        exact h.above b hm (by rw [h2]; exact a)
      rw [if_neg x, if_neg y]
    · have e1 : (pathOf e).getLast? = some c := by rw [h2]; simp
      rw [e1]
      simp only
      by_cases ho : c = ".wh..wh..opq".toList
      · rw [if_pos ho, h2, List.dropLast_concat]
        rw [if_neg]
        intro h3
        have := h.opq d (by rw [h2, ho]) h3
        apply h1
        rw [← this, h2]
        exact ⟨List.prefix_append _ _, by simp⟩
      · rw [if_neg ho]
        by_cases hm : isMarker c
        · rw [if_pos hm, h2, List.dropLast_concat]
          rw [if_neg]
          intro h3
          obtain ⟨t, ht⟩ := hm
          refine h.whiteout d t (by rw [h2, ht]) ?_
          rw [← ht] at h3
          exact h3
        · rw [if_neg hm]
          have hne : ¬ p = pathOf e := fun h3 => h.other h3.symm
          have hme : ¬ isMarkerEntry e := by
            rintro ⟨c', h3, h4⟩
            rw [e1] at h3; injection h3 with h3; rw [← h3] at h4; exact hm h4
          have y : ¬ (pathOf e <+: p ∧ isFile (nodeOf e)) := fun h3 => h.above h3.2 hme h3.1
          rw [if_neg hne, if_neg y]

theorem foldl_leaves {p : Path} {nd : Node} : ∀ (es : List Entry) (V : View), (∀ e ∈ es, Leaves e p nd) → V p = some nd →
    es.foldl apply V p = some nd := by
  intro es
  induction es with
  | nil => intro V _ h; exact h
  | cons e es ih => intro V h1 h2; exact ih _ (fun x hx => h1 x (by simp [hx])) (apply_leaves (h1 e (by simp)) h2)

theorem apply_self {V : View} {e : Entry} (hm : ¬ isMarkerEntry e) : apply V e (pathOf e) = some (nodeOf e) := by
  unfold apply applyAt
  rw [if_neg (by simp)]
  cases h : (pathOf e).getLast? with
  | none => simp
  | some c =>
    simp only
    have : ¬ isMarker c := fun h2 => hm ⟨c, h, h2⟩
    have ho : c ≠ ".wh..wh..opq".toList := fun h3 => this (by rw [h3]; decide)
    rw [if_neg ho, if_neg this]
    simp

theorem applyLayers_eq (layers : List (List Entry)) : applyLayers layers = (layers.flatMap inOrder).foldl apply emptyView := by
  unfold applyLayers
  generalize emptyView = V
  induction layers generalizing V with
  | nil => rfl
  | cons l ls ih =>
    rw [List.foldl_cons, ih, List.flatMap_cons, List.foldl_append]; rfl

theorem pathOf_notBelowLink {layers : List (List Entry)} (hl : NoThrough layers) {S : FS} {V : View}
    (hs : Sim (fun p => ∃ l ∈ layers, ∃ e ∈ l, e.header.typeflag = '2' ∧ pathOf e = p) S V) {l : List Entry} {e : Entry}
    (h1 : l ∈ layers) (h2 : e ∈ l) {t : Path} (h3 : t <+: pathOf e) (h4 : t ≠ pathOf e) : S.link t = none := by
  cases h : S.link t with
  | none => rfl
  | some x =>
    obtain ⟨l', h1', e', h2', h5, rfl⟩ := hs.link t x h
    exact absurd (hl l' h1' e' h2' h5 l h1 e h2 h3) h4

theorem mem_inOrder {l : List Entry} {e : Entry} : e ∈ inOrder l ↔ e ∈ l := by
  unfold inOrder
  rw [List.mem_append, List.mem_filter, List.mem_filter]
  by_cases h : isMarkerEntry e <;> simp [h]

/-- **C66** (the last one wins).  Take the entries of all layers in order (within a layer the markers first).  If no
entry after the ordinary entry `e` touches its path, then after loading, the node at that path has the header and content
of `e`, and `Open` of that path finds it. -/
theorem C66_last_wins (layers : List (List Entry)) (hin : ∀ l ∈ layers, ∀ e ∈ l, ¬ Outside e.header.name) (hl : NoThrough layers)
    (pre post : List Entry) (e : Entry) (ho : layers.flatMap inOrder = pre ++ e :: post) (hv : Visible (pathOf e))
    (hp : ∀ e' ∈ post, Leaves e' (pathOf e) (nodeOf e)) (n : Nat) (hn : 3 ≤ n) :
    ∃ S, loadLayers n layers false = some (.ok S) ∧ S.get? (pathOf e) = some (nodeOf e) ∧
      ∀ name, validPath name = true → comps name = pathOf e → e.header.typeflag ≠ '2' →
        openFile n S name = some (.ok (pathOf e, pathOf e)) := by
  obtain ⟨S, h1, h2⟩ := load_sim (oc := false) hin hl hn
  have e0 : layers.map (·.map (dropBody false)) = layers := by
    have e : dropBody false = id := by funext e; rfl
    rw [e]; simp
  rw [e0] at h2
  have hme : ¬ isMarkerEntry e := by
    rintro ⟨c, h3, h4⟩
    exact hv c (List.mem_of_getLast? h3) h4
  have hget : S.get? (pathOf e) = some (nodeOf e) := by
    rw [h2.view _ hv, applyLayers_eq, ho, List.foldl_append, List.foldl_cons]
    exact foldl_leaves _ _ hp (apply_self hme)
  refine ⟨S, h1, hget, ?_⟩
  intro name hvn hc ht
  obtain ⟨l, hl1, hl2⟩ : ∃ l ∈ layers, e ∈ l := by
    have : e ∈ layers.flatMap inOrder := by rw [ho]; simp
    obtain ⟨l, h3, h4⟩ := List.mem_flatMap.mp this
    exact ⟨l, h3, mem_inOrder.mp h4⟩
  obtain ⟨k, rfl⟩ : ∃ k, n = k + 2 := ⟨n - 2, by omega⟩
  rw [← hc] at hget ⊢
  refine (open_exact h2.inv hvn ?_).1 _ hget ?_
  · intro t h3 h4
    rw [hc] at h3 h4
    exact pathOf_notBelowLink hl h2 hl1 hl2 h3 h4
  · simp only [Node.link, nodeOf]
    exact if_neg ht

/-- the entries in question -/
def exStack : List (List Entry) :=
  [[exDir "d/", exFile "d/f" [1], exFile "d/g" [2], exFile "s" [3]],
   [exFile "d/f" [4], exFile "d/.wh.f" [], exLink "s" "d"],
   [exFile "d/g" [], exFile "d/.wh..wh..opq" [], exDir "d/e/../h"]]

example : (∀ l ∈ exStack, ∀ e ∈ l, outside (clean e.header.name) = false) ∧
    NoThrough exStack := by decide +kernel

/-- a case for `C66_last_wins`: the symlink "s", followed by other entries -/
example : exStack.flatMap inOrder = ((exStack.flatMap inOrder).take 6) ++ exLink "s" "d" :: [exFile "d/.wh..wh..opq" [], exFile "d/g" [], exDir "d/e/../h"] := by
  decide +kernel

example : ∀ e' ∈ [exFile "d/.wh..wh..opq" [], exFile "d/g" [], exDir "d/e/../h"], Leaves e' ["s".toList] (nodeOf (exLink "s" "d")) := by
  have p1 : pathOf (exFile "d/.wh..wh..opq" []) = ["d".toList, ".wh..wh..opq".toList] := by decide +kernel
  have p2 : pathOf (exFile "d/g" []) = ["d".toList, "g".toList] := by decide +kernel
  have p3 : pathOf (exDir "d/e/../h") = ["d".toList, "h".toList] := by decide +kernel
  have key : ∀ (e : Entry) (x : Str), pathOf e = ["d".toList, x] → Leaves e ["s".toList] (nodeOf (exLink "s" "d")) := by
    intro e x hx
    refine ⟨by rw [hx]; simp, ?_, ?_, ?_, ?_⟩
    · intro _; rw [hx, List.cons_prefix_cons]; rintro ⟨h, _⟩; exact absurd h (by decide)
    · intro _ _; rw [hx, List.cons_prefix_cons]; rintro ⟨h, _⟩; exact absurd h (by decide)
    · intro d h1 h2
      rw [hx] at h1
      have : d = ["d".toList] := (List.append_inj' (t₁ := [x]) (s₁ := ["d".toList]) h1 rfl).1.symm
      rw [this, List.cons_prefix_cons] at h2
      exact absurd h2.1 (by decide)
    · intro d y h1 h2
      rw [hx] at h1
      have : d = ["d".toList] := (List.append_inj' (t₁ := [x]) (s₁ := ["d".toList]) h1 rfl).1.symm
      rw [this, List.singleton_append, List.cons_prefix_cons] at h2
      exact absurd h2.1 (by decide)
  intro e' he
  simp only [List.mem_cons, List.not_mem_nil, or_false] at he
  rcases he with rfl | rfl | rfl
  · exact key _ _ p1
  · exact key _ _ p2
  · exact key _ _ p3

/-! ### what is not there -/

theorem apply_absent {V : View} {e : Entry} {q : Path} (h : ¬ q <+: pathOf e) (hv : V q = none) : apply V e q = none := by
  unfold apply applyAt
  have x1 : ¬ (q <+: pathOf e ∧ q ≠ pathOf e) := fun h2 => h h2.1
  have x2 : ¬ q = pathOf e := fun h2 => h (by rw [h2]; exact List.prefix_refl _)
  rw [if_neg x1, hv]
  split
  · split
    · split <;> rfl
    · split
      · split <;> rfl
      · first | (rw [if_neg x2]; split <;> rfl) | (split <;> rfl)
  · first | (rw [if_neg x2]; split <;> rfl) | (split <;> rfl)

theorem foldl_absent {q : Path} : ∀ (es : List Entry) (V : View), (∀ e ∈ es, ¬ q <+: pathOf e) → V q = none →
    es.foldl apply V q = none := by
  intro es
  induction es with
  | nil => intro V _ h; exact h
  | cons e es ih => intro V h1 h2; exact ih _ (fun x hx => h1 x (by simp [hx])) (apply_absent (h1 e (by simp)) h2)

/-- **C66** (nothing comes from nowhere).  A path is only found if some entry of some layer is at or below it. -/
theorem C66_mentioned (layers : List (List Entry)) (hin : ∀ l ∈ layers, ∀ e ∈ l, ¬ Outside e.header.name) (hl : NoThrough layers)
    (n : Nat) (hn : 3 ≤ n) (q : List Str) (hq : Visible q) (hne : q ≠ []) (hno : ∀ l ∈ layers, ∀ e ∈ l, ¬ q <+: pathOf e) :
    ∃ S, loadLayers n layers false = some (.ok S) ∧ S.get? q = none := by
  obtain ⟨S, h1, h2⟩ := (C66_view layers hin hl n hn).1
  refine ⟨S, h1, ?_⟩
  rw [h2 q hq, applyLayers_eq]
  refine foldl_absent _ _ ?_ ?_
  · intro e he
    obtain ⟨l, h3, h4⟩ := List.mem_flatMap.mp he
    exact hno l h3 e (mem_inOrder.mp h4)
  · unfold emptyView; rw [if_neg hne]

/-- the part of the removal that whiteouts and opaque markers share -/
theorem removed {layers : List (List Entry)} (hin : ∀ l ∈ layers, ∀ e ∈ l, ¬ Outside e.header.name) (hl : NoThrough layers)
    {ls₁ ls₂ : List (List Entry)} {l : List Entry} (hls : layers = ls₁ ++ l :: ls₂) {m : Entry} (hm : m ∈ l) {q : Path}
    (hq : Visible q) (hrem : ∀ V : View, apply V m q = none)
    (hno : ∀ l' ∈ l :: ls₂, ∀ e ∈ l', ¬ q <+: pathOf e) {n : Nat} (hn : 3 ≤ n) :
    ∃ S, loadLayers n layers false = some (.ok S) ∧ S.get? q = none ∧
      ∀ name, validPath name = true → comps name = q → q.dropLast <+: pathOf m → q.dropLast ≠ pathOf m → openFile n S name = some (.error ()) := by
  obtain ⟨S, h1, h2⟩ := load_sim (oc := false) hin hl hn
  have e0 : layers.map (·.map (dropBody false)) = layers := by
    have e : dropBody false = id := by funext e; rfl
    rw [e]; simp
  rw [e0] at h2
  have hget : S.get? q = none := by
    rw [h2.view q hq, applyLayers_eq]
    obtain ⟨a, b, hab⟩ := List.append_of_mem (mem_inOrder.mpr hm)
    rw [hls, List.flatMap_append, List.flatMap_cons, hab, List.append_assoc, List.cons_append, ← List.append_assoc,
      List.foldl_append, List.foldl_cons]
    refine foldl_absent _ _ ?_ (hrem _)
    intro e he
    rcases List.mem_append.mp he with h3 | h3
    · exact hno l (by simp) e (mem_inOrder.mp (by rw [hab]; simp [h3]))
    · obtain ⟨l', h4, h5⟩ := List.mem_flatMap.mp h3
      exact hno l' (by simp [h4]) e (mem_inOrder.mp h5)
  refine ⟨S, h1, hget, ?_⟩
  intro name hvn hc h3 h3'
  obtain ⟨k, rfl⟩ : ∃ k, n = k + 2 := ⟨n - 2, by omega⟩
  refine (open_exact h2.inv hvn ?_).2 (by rw [hc]; exact hget)
  intro t h4 h5
  rw [hc] at h4 h5
  have h6 : t <+: q.dropLast := by
    rcases snoc_cases q with h | ⟨d, c, h⟩
    · rw [h] at h4 h5; exact absurd (List.prefix_nil.mp h4) h5
    · rw [h] at h4 h5 ⊢
      rw [List.dropLast_concat]
      rcases snoc_cases t with h | ⟨d', c', h⟩
      · rw [h]; exact List.nil_prefix
      · rw [h] at h4 h5 ⊢
        rcases prefix_snoc_snoc.mp h4 with h7 | h7
        · exact absurd h7 h5
        · exact h7
  refine pathOf_notBelowLink hl h2 (l := l) (e := m) (by rw [hls]; simp) hm (h6.trans h3) ?_
  intro h7
  apply h3'
  rw [h7] at h6
  exact h3.eq_of_length_le h6.length_le

/-- **C67** (whiteouts hide).  If some layer has the whiteout ".wh.x" in a directory `d`, then nothing at or below `d/x`
remains visible, except what entries of that layer or later layers put there: if none of these has a path at or below
`q`, where `q` is `d/x` or below it, then there is nothing at `q`; in particular opening `d/x` fails. -/
theorem C67_whiteout_partial (layers ls₁ ls₂ : List (List Entry)) (l : List Entry) (hls : layers = ls₁ ++ l :: ls₂)
    (hin : ∀ l ∈ layers, ∀ e ∈ l, ¬ Outside e.header.name) (hl : NoThrough layers)
    (m : Entry) (hm : m ∈ l) (d : List Str) (x : Str) (hx : pathOf m = d ++ [".wh.".toList ++ x]) (q : List Str) (hq : Visible q)
    (hb : d ++ [x] <+: q) (hno : ∀ l' ∈ l :: ls₂, ∀ e ∈ l', ¬ q <+: pathOf e) (n : Nat) (hn : 3 ≤ n) :
    ∃ S, loadLayers n layers false = some (.ok S) ∧ S.get? q = none ∧
      ∀ name, validPath name = true → comps name = d ++ [x] → q = d ++ [x] → openFile n S name = some (.error ()) := by
  have hmk : isMarker (".wh.".toList ++ x) := List.prefix_append _ _
  have hnp : ¬ q <+: pathOf m := hno l (by simp) m hm
  have hrem : ∀ V : View, apply V m q = none := by
    intro V
    unfold apply applyAt
    rw [if_neg (fun h => hnp h.1), hx]
    have e1 : (d ++ [".wh.".toList ++ x]).getLast? = some (".wh.".toList ++ x) := by simp
    rw [e1]
    simp only [List.dropLast_concat]
    by_cases ho : ".wh.".toList ++ x = ".wh..wh..opq".toList
    · rw [if_pos ho, if_pos ((List.prefix_append _ _).trans hb)]
    · rw [if_neg ho, if_pos hmk]
      exact if_pos hb
  obtain ⟨S, h1, h2, h3⟩ := removed hin hl hls hm hq hrem hno hn
  refine ⟨S, h1, h2, ?_⟩
  intro name hv hc hqe
  refine h3 name hv (by rw [hc, hqe]) ?_ ?_
  · rw [hqe, List.dropLast_concat, hx]; exact List.prefix_append _ _
  · rw [hqe, List.dropLast_concat, hx]; simp

/-- **C67** (opaque markers hide).  If some layer has an opaque marker in the directory `d`, then nothing below `d`
remains visible except what entries of that layer or later layers put there. -/
theorem C67_opaque_partial (layers ls₁ ls₂ : List (List Entry)) (l : List Entry) (hls : layers = ls₁ ++ l :: ls₂)
    (hin : ∀ l ∈ layers, ∀ e ∈ l, ¬ Outside e.header.name) (hl : NoThrough layers)
    (m : Entry) (hm : m ∈ l) (d : List Str) (hx : pathOf m = d ++ [".wh..wh..opq".toList]) (q : List Str) (hq : Visible q)
    (hb : d <+: q) (hno : ∀ l' ∈ l :: ls₂, ∀ e ∈ l', ¬ q <+: pathOf e) (n : Nat) (hn : 3 ≤ n) :
    ∃ S, loadLayers n layers false = some (.ok S) ∧ S.get? q = none ∧
      ∀ name x, validPath name = true → comps name = d ++ [x] → q = d ++ [x] → openFile n S name = some (.error ()) := by
  have hnp : ¬ q <+: pathOf m := hno l (by simp) m hm
  have hrem : ∀ V : View, apply V m q = none := by
    intro V
    unfold apply applyAt
    rw [if_neg (fun h => hnp h.1), hx]
    have e1 : (d ++ [".wh..wh..opq".toList]).getLast? = some (".wh..wh..opq".toList) := by simp
    rw [e1]
    simp only [List.dropLast_concat, if_true]
    exact if_pos hb
  obtain ⟨S, h1, h2, h3⟩ := removed hin hl hls hm hq hrem hno hn
  refine ⟨S, h1, h2, ?_⟩
  intro name x hv hc hqe
  refine h3 name hv (by rw [hc, hqe]) ?_ ?_
  · rw [hqe, List.dropLast_concat, hx]; exact List.prefix_append _ _
  · rw [hqe, List.dropLast_concat, hx]; simp

/-- **C67** (and only those).  Removing a whiteout or opaque marker from a layer stack changes nothing at paths it does not
cover: other names, and other than the directories on the marker's own path (which it makes exist). -/
theorem C67_only_partial (ls₁ ls₂ : List (List Entry)) (l₁ l₂ : List Entry) (m : Entry)
    (hin : ∀ l ∈ ls₁ ++ (l₁ ++ m :: l₂) :: ls₂, ∀ e ∈ l, ¬ Outside e.header.name) (hl : NoThrough (ls₁ ++ (l₁ ++ m :: l₂) :: ls₂))
    (d : List Str) (x : Str) (hx : pathOf m = d ++ [".wh.".toList ++ x]) (q : List Str) (hq : Visible q) (hqd : ¬ q <+: d)
    (hcov : if x = ".wh..opq".toList then ¬ d <+: q else ¬ d ++ [x] <+: q) (n : Nat) (hn : 3 ≤ n) :
    ∃ S T, loadLayers n (ls₁ ++ (l₁ ++ m :: l₂) :: ls₂) false = some (.ok S) ∧ loadLayers n (ls₁ ++ (l₁ ++ l₂) :: ls₂) false = some (.ok T) ∧
      S.get? q = T.get? q := by
  have hsub : ∀ l ∈ ls₁ ++ (l₁ ++ l₂) :: ls₂, ∀ e ∈ l, ∃ l' ∈ ls₁ ++ (l₁ ++ m :: l₂) :: ls₂, e ∈ l' := by
    intro l h e he
    rcases List.mem_append.mp h with h | h
    · exact ⟨l, by simp [h], he⟩
    · rcases List.mem_cons.mp h with h | h
      · refine ⟨l₁ ++ m :: l₂, by simp, ?_⟩
        rw [h] at he
        rcases List.mem_append.mp he with he | he <;> simp [he]
      · exact ⟨l, by simp [h], he⟩
  have hmk : isMarker (".wh.".toList ++ x) := List.prefix_append _ _
  have hme : isMarkerEntry m := ⟨_, by rw [hx]; simp, hmk⟩
  obtain ⟨S, h1, h2⟩ := (C66_view _ hin hl n hn).1
  obtain ⟨T, h3, h4⟩ := (C66_view (ls₁ ++ (l₁ ++ l₂) :: ls₂) (fun l h e he => by
      obtain ⟨l', a, b⟩ := hsub l h e he
      exact hin l' a e b) (fun l h e he ht l' h' e' he' => by
      obtain ⟨k, a, b⟩ := hsub l h e he
      obtain ⟨k', a', b'⟩ := hsub l' h' e' he'
      exact hl k a e b ht k' a' e' b') n hn).1
  refine ⟨S, T, h1, h3, ?_⟩
  rw [h2 q hq, h4 q hq, applyLayers_eq, applyLayers_eq]
  simp only [List.flatMap_append, List.flatMap_cons, List.foldl_append]
  apply foldl_at_congr
  unfold inOrder
  simp only [List.filter_append, List.foldl_append]
  have f1 : (m :: l₂).filter (fun e => decide (¬ isMarkerEntry e)) = l₂.filter (fun e => decide (¬ isMarkerEntry e)) :=
    List.filter_cons_of_neg (by simpa using hme)
  have f2 : (m :: l₂).filter (fun e => decide (isMarkerEntry e)) = m :: l₂.filter (fun e => decide (isMarkerEntry e)) :=
    List.filter_cons_of_pos (by simpa using hme)
  rw [f1, f2, List.foldl_cons]
  apply foldl_at_congr
  apply foldl_at_congr
  apply foldl_at_congr
  generalize List.foldl apply _ (List.filter _ l₁) = V
  unfold apply applyAt
  have e1 : (pathOf m).getLast? = some (".wh.".toList ++ x) := by rw [hx]; simp
  have hnp : ¬ q <+: pathOf m := by
    rw [hx]
    intro h
    rcases snoc_cases q with h5 | ⟨q', c, h5⟩
    · rw [h5] at hqd; exact hqd List.nil_prefix
    · rw [h5] at h hqd
      rcases prefix_snoc_snoc.mp h with h6 | h6
      · refine hq (".wh.".toList ++ x) ?_ hmk
        rw [h5, h6]; simp
      · exact hqd h6
  rw [if_neg (fun h => hnp h.1), e1]
  simp only
  rw [hx, List.dropLast_concat]
  by_cases ho : ".wh.".toList ++ x = ".wh..wh..opq".toList
  · have : x = ".wh..opq".toList := by
      have : ".wh.".toList ++ x = ".wh.".toList ++ ".wh..opq".toList := ho
      exact List.append_cancel_left this
    rw [if_pos this] at hcov
    rw [if_pos ho, if_neg hcov]
  · have : x ≠ ".wh..opq".toList := fun h => ho (by rw [h]; rfl)
    rw [if_neg this] at hcov
    rw [if_neg ho, if_pos hmk]
    exact if_neg hcov

/-- cases for C67: "d/f" was whited out in the second layer, but its new version is there; then it is hidden by the opaque
marker, which spares "d/g" of its own layer -/
example : (loadLayers 3 exStack false).map (fun r => r.toOption.map (fun S => (S.get? ["d".toList, "f".toList],
      S.get? ["d".toList, "g".toList], S.get? ["s".toList]))) =
    some (some (none, some (nodeOf (exFile "d/g" [])), some (nodeOf (exLink "s" "d")))) := by decide +kernel

example : (loadLayers 3 (exStack.take 2) false).map (fun r => r.toOption.map (fun S => S.get? ["d".toList, "f".toList])) =
    some (some (some (nodeOf (exFile "d/f" [4])))) := by decide +kernel

example : pathOf (exFile "d/.wh.f" []) = ["d".toList] ++ [".wh.".toList ++ "f".toList] ∧
    pathOf (exFile "d/.wh..wh..opq" []) = ["d".toList] ++ [".wh..wh..opq".toList] := by decide +kernel

example : (∀ l' ∈ exStack.drop 2, ∀ e ∈ l', ¬ ["d".toList, "f".toList] <+: pathOf e) ∧ Visible ["d".toList, "f".toList] := by
  decide +kernel

end Squash
