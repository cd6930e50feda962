import Verif.Squash.PropsThrough
import Verif.Squash.PropsWhole
/-! C114: squashing a whole image whose entries' paths lead through symlinks. -/
namespace Squash
open Go Spec

/-- the node of an entry, its name being that of the place `q` where it is -/
def Spec.placedAt (q : List Str) (nd : Node) : Node :=
  ⟨nd.header.map (fun h => { h with name := if q = [] then ".".toList else join "/".toList q }), nd.body⟩

theorem placedAt_eq (q : Path) (nd : Node) : placedAt q nd = ⟨nd.header.map (fun h => { h with name := render false q }), nd.body⟩ := rfl

/-! ### the tree with all names corrected -/

/-- the tree with the names of the places -/
def norm (S : FS) : FS := S.map (fun x => (x.1, placedAt x.1 x.2))

theorem get?_norm (S : FS) (p : Path) : (norm S).get? p = (S.get? p).map (placedAt p) := by
  unfold norm FS.get?
  induction S with
  | nil => rfl
  | cons x S ih =>
    rw [List.map_cons, List.find?_cons, List.find?_cons]
    by_cases h : x.1 = p
    · simp [h]
    · simp only [h, decide_false]
      exact ih

theorem placedAt_nonDir (q : Path) (nd : Node) : (placedAt q nd).nonDir = nd.nonDir := by
  unfold placedAt Node.nonDir
  cases nd.header <;> rfl

theorem placedAt_link (q : Path) (nd : Node) : (placedAt q nd).link = nd.link := by
  unfold placedAt Node.link
  cases nd.header <;> rfl

theorem norm_has {S : FS} {p : Path} : (norm S).has p ↔ S.has p := by
  unfold FS.has; rw [get?_norm]; simp

theorem norm_nonDir (S : FS) (p : Path) : (norm S).nonDir p = S.nonDir p := by
  unfold FS.nonDir; rw [get?_norm]
  cases S.get? p with
  | none => rfl
  | some nd => exact placedAt_nonDir p nd

theorem norm_link (S : FS) (p : Path) : (norm S).link p = S.link p := by
  unfold FS.link; rw [get?_norm]
  cases S.get? p with
  | none => rfl
  | some nd => exact placedAt_link p nd

theorem norm_keys (S : FS) : (norm S).map (·.1) = S.map (·.1) := by
  unfold norm; rw [List.map_map]; rfl

theorem norm_wfs {S : FS} (hi : Inv false S) (h : Shape S) : WFS (norm S) := by
  refine ⟨⟨?_, ?_, ?_, ?_, ?_, by simp, ?_⟩, ?_, ?_, ?_, ?_, ?_, ?_⟩
  · rw [norm_keys]; exact hi.nodup
  · exact norm_has.mpr hi.root
  · intro p c hp; exact norm_has.mpr (hi.closed p c (norm_has.mp hp))
  · intro p hp c
    rw [norm_nonDir] at hp
    rw [get?_norm, hi.leaf p hp c]; rfl
  · intro p hp; exact hi.keys p (norm_has.mp hp)
  · intro p c nd hd hg hh
    right
    rw [get?_norm] at hg
    obtain ⟨nd', h1, h2⟩ := Option.map_eq_some_iff.mp hg
    rw [← h2, placedAt_eq] at hh
    obtain ⟨hd', _, h4⟩ := Option.map_eq_some_iff.mp hh
    rw [← h4]
    exact pathBase_render (h.plain _ (has_of h1) c (by simp))
  · intro p hp; exact h.plain p (norm_has.mp hp)
  · intro p c hp; exact h.inner p c (norm_has.mp hp)
  · intro p c nd hg hk
    rw [get?_norm] at hg
    obtain ⟨nd', h1, h2⟩ := Option.map_eq_some_iff.mp hg
    rw [← h2, placedAt_nonDir]
    exact h.mark p c nd' h1 hk
  · intro q nd hg hh hq
    rw [get?_norm] at hg
    obtain ⟨nd', h1, h2⟩ := Option.map_eq_some_iff.mp hg
    rw [← h2, placedAt_eq] at hh
    obtain ⟨c, hc⟩ := h.nil q nd' h1 (by simpa using hh) hq
    exact ⟨c, norm_has.mpr hc⟩
  · intro q nd hd _ hg hh
    rw [get?_norm] at hg
    obtain ⟨nd', h1, h2⟩ := Option.map_eq_some_iff.mp hg
    rw [← h2, placedAt_eq] at hh
    obtain ⟨hd', _, h4⟩ := Option.map_eq_some_iff.mp hh
    rw [← h4]
  · rw [norm_nonDir]; exact h.root

theorem norm_nodeEntry (S : FS) (p : Path) : nodeEntry (norm S) p = nodeEntry S p := by
  unfold nodeEntry
  rw [get?_norm]
  cases S.get? p with
  | none => rfl
  | some nd =>
    obtain ⟨hd, b⟩ := nd
    cases hd with
    | none => rfl
    | some hd => rfl

theorem norm_childNames (S : FS) (p : Path) : childNames (norm S) p = childNames S p := by
  unfold childNames norm
  rw [List.filterMap_map]
  rfl

theorem norm_writeTo (srt : (Str → Str → Bool) → List Str → List Str) (order : Path → List Str → List Str) (S : FS) :
    ∀ (n : Nat) (p : Path), writeTo srt order (norm S) n p = writeTo srt order S n p := by
  intro n
  induction n with
  | zero => intro p; rfl
  | succ n ih =>
    intro p
    rw [writeTo, writeTo, norm_nodeEntry, norm_childNames]
    congr 2
    funext c
    exact ih _

theorem norm_depth (S : FS) : depth (norm S) = depth S := by
  unfold depth norm
  rw [List.foldl_map]

/-! ### writing out a tree -/

theorem act_empty {S : FS} (hb : ∀ q nd, S.get? q = some nd → nd.header = none → nd = ⟨none, []⟩) (hr : S.has []) (q : Path) :
    act S q (emptyView q) = S.get? q := by
  unfold act emptyView
  cases hg : S.get? q with
  | none =>
    have hq : q ≠ [] := by
      rintro rfl
      unfold FS.has at hr; rw [hg] at hr; simp at hr
    simp [hq]
  | some nd =>
    simp only
    cases hh : nd.header with
    | some hd => simp
    | none =>
      rw [hb q nd hg hh]
      simp only [Option.isSome_none, Bool.false_eq_true, if_false]
      split
      · rfl
      · split <;> rfl

theorem out_inside {S : FS} (hw : WFS S) {srt : (Str → Str → Bool) → List Str → List Str} {order : Path → List Str → List Str} {e : Entry}
    (he : e ∈ writeTo srt order S (depth S) []) : ¬ Outside e.header.name := by
  obtain ⟨p, hp⟩ := mem_writeTo _ _ he
  rw [List.nil_append] at hp
  obtain ⟨_, h2, nd, hd, h3, _⟩ := out_entry hw hp
  have hpl := hw.plain p (has_of h3)
  have hroot := isRooted_render_plain hpl
  have hsplit := split_render (rooted := false) (fun c hc => (hpl c hc).2.2.2)
  unfold Outside
  rw [h2]
  rintro (⟨t, ht⟩ | ht | ⟨t, ht⟩)
  · rw [← ht] at hroot; simp [isRooted] at hroot
  · have h7 : clean ("..".toList) = "..".toList := by decide +kernel
    rw [ht] at hsplit
    simp only [Bool.false_eq_true, if_false] at hsplit
    by_cases h8 : p = []
    · rw [if_pos h8] at hsplit; exact absurd hsplit (by decide)
    · rw [if_neg h8] at hsplit
      exact (hpl "..".toList (by rw [← hsplit]; decide)).2.2.1 rfl
  · rw [← ht] at hsplit
    simp only [Bool.false_eq_true, if_false] at hsplit
    have h9 : split '/' ("../".toList ++ t) = "..".toList :: split '/' t := by
      have : "../".toList ++ t = "..".toList ++ '/' :: t := rfl
      rw [this, split_append]; rfl
    rw [h9] at hsplit
    by_cases h8 : p = []
    · rw [if_pos h8] at hsplit
      injection hsplit with h10 _
      exact absurd h10 (by decide)
    · rw [if_neg h8] at hsplit
      exact (hpl "..".toList (by rw [← hsplit]; simp)).2.2.1 rfl

/-- nothing is written below a symlink -/
theorem out_leaf {S : FS} (hw : WFS S) {srt : (Str → Str → Bool) → List Str → List Str} {order : Path → List Str → List Str} :
    NoThrough [writeTo srt order S (depth S) []] := by
  intro l hl e he ht l' hl' e' he' hp
  rw [List.mem_singleton.mp hl] at he
  rw [List.mem_singleton.mp hl'] at he'
  obtain ⟨p, h1⟩ := mem_writeTo _ _ he
  obtain ⟨p', h1'⟩ := mem_writeTo _ _ he'
  rw [List.nil_append] at h1 h1'
  obtain ⟨a, _, nd, hd, b, c, d, _⟩ := out_entry hw h1
  obtain ⟨a', _, nd', hd', b', _⟩ := out_entry hw h1'
  rw [a, a'] at hp ⊢
  refine Classical.byContradiction fun hne => ?_
  have hnd : S.nonDir p = true := by
    unfold FS.nonDir Node.nonDir
    rw [b]
    simp only [c]
    rw [← d, ht]; decide
  have := hw.inv.noDesc (hw.inv.leaf p hnd) hp (Ne.symm hne)
  rw [this] at b'; simp at b'

/-- C114, for layers with symlinks as in C99 (else it fails, `C114_violated`), a root that is a directory and markers that are not: all
layers of an image are squashed into one whose entries have the names of the places where the entries of the layers take effect, none
of them below a symlink, so that it can be extracted or loaded as it is.  On an empty file system it gives, at every path, what
the entries of all layers give when each takes effect where its path leads at that time; and loading it shows what loading
all the layers shows, except for the names in the headers. -/
theorem C114_whole_partial (layers : List (List Entry)) (hin : ∀ l ∈ layers, ∀ e ∈ l, ¬ Outside e.header.name)
    (hf : ∀ l ∈ layers, ∀ e ∈ l, LinksFine e) (hu : ∀ l ∈ layers, ∀ e ∈ l, Usual e) (W : View)
    (hw : LoadsTo emptyView (layers.flatMap inOrder) W) (srt : (Str → Str → Bool) → List Str → List Str) (hs : SortSlice srt)
    (order : Path → List Str → List Str) (ho : PermOrder order) :
    ∃ n0 out S, (∀ n, n0 ≤ n → squash n srt order layers = some (.ok out) ∧ loadLayers n layers false = some (.ok S)) ∧
      (∀ e ∈ out, ¬ Outside e.header.name) ∧ NoThrough [out] ∧
      (∀ q, Visible q → applyLayer emptyView out q = (W q).map (placedAt q)) ∧
      ∀ n, 3 ≤ n → ∃ T, loadLayers n [out] false = some (.ok T) ∧ ∀ q, Visible q → T.get? q = (S.get? q).map (placedAt q) := by
  have e0 : ∀ es : List Entry, es.map (dropBody false) = es := by
    intro es
    have : dropBody false = id := by funext e; rfl
    rw [this]; simp
  obtain ⟨n0, S, h1, h2⟩ := loadFrom_kept (oc := false) (u := True) layers emptyFS emptyView W
    ⟨fun _ => shape_empty, inv_empty false, fun q _ => get?_emptyFS q, by
      intro p l h
      exact (sim_empty (fun _ => False)).link p l h |>.elim⟩
    (fun l h1 e h2 => inside_false (hin l h1 e h2)) hf (fun _ => hu) (by rw [e0]; exact hw)
  have hsh := h2.shape trivial
  have hw' := norm_wfs h2.inv hsh
  have hout : writeTo srt order S (depth S) [] = writeTo srt order (norm S) (depth (norm S)) [] := by
    rw [norm_writeTo, norm_depth]
  have hview : ∀ q, Visible q → applyLayer emptyView (writeTo srt order S (depth S) []) q = (W q).map (placedAt q) := by
    intro q hq
    unfold applyLayer
    rw [hout, foldl_at_congr _ emptyView (fun _ => emptyView q) rfl, out_act hs ho hw' hq _ (by
      rintro rfl; exact ⟨⟨none, []⟩, rfl, rfl⟩), act_empty ?_ (norm_has.mpr h2.inv.root), get?_norm, h2.view q hq]
    intro p nd hg hh
    rw [get?_norm] at hg
    obtain ⟨nd', a, b⟩ := Option.map_eq_some_iff.mp hg
    rw [← b, placedAt_eq] at hh
    have := hsh.bare p nd' a (by simpa using hh)
    rw [← b, this]; rfl
  refine ⟨n0, writeTo srt order S (depth S) [], S, fun n hn => ⟨?_, h1 n hn⟩, ?_, ?_, hview, ?_⟩
  · unfold squash
    rw [show loadLayers n layers false = some (.ok S) from h1 n hn, bind_some_ok]
  · rw [hout]; exact fun e he => out_inside hw' he
  · rw [hout]; exact out_leaf hw'
  · intro n hn
    obtain ⟨T, t1, t2⟩ := (C66_view [writeTo srt order S (depth S) []] (by
      intro l hl e he
      rw [List.mem_singleton.mp hl, hout] at he
      exact out_inside hw' he) (by rw [hout]; exact out_leaf hw') n hn).1
    refine ⟨T, t1, fun q hq => ?_⟩
    rw [t2 q hq, h2.view q hq, ← hview q hq]
    rfl

/-! ### a case, and a case in which the code differs -/

/-- "lib" is a symlink to "usr/lib"; the second layer removes "lib/g", the third replaces "lib/f" -/
def exUpdated : List (List Entry) := exMerged ++ [[exFile "lib/.wh.g" []], [exFile "lib/f" [3]]]

def exUpdatedView : View := applyAt (applyAt exMergedView ["usr".toList, "lib".toList, ".wh.g".toList] (nodeOf (exFile "lib/.wh.g" [])))
  ["usr".toList, "lib".toList, "f".toList] (nodeOf (exFile "lib/f" [3]))

example : LoadsTo emptyView (exUpdated.flatMap inOrder) exUpdatedView ∧ (∀ l ∈ exUpdated, ∀ e ∈ l, LinksFine e) ∧
    (∀ l ∈ exUpdated, ∀ e ∈ l, Usual e) ∧ (∀ l ∈ exUpdated, ∀ e ∈ l, ¬ Outside e.header.name) ∧
    exUpdatedView ["usr".toList, "lib".toList, "f".toList] = some (nodeOf (exFile "lib/f" [3])) ∧
    exUpdatedView ["usr".toList, "lib".toList, "g".toList] = none ∧
    exUpdatedView ["lib".toList] = some (nodeOf (exLink "lib" "usr/lib")) := by
  have nolink : ∀ {nd : Node}, nd.link = none → ∀ t, ¬ LinkTo nd t := fun h t ht => by rw [linkTo_iff.mp ht] at h; cases h
  refine ⟨?_, ?_, ?_, ?_, by decide +kernel, by decide +kernel, by decide +kernel⟩
  · have e : exUpdated.flatMap inOrder = exMerged.flatMap inOrder ++ [exFile "lib/.wh.g" [], exFile "lib/f" [3]] := by decide +kernel
    rw [e]
    refine loadsTo_append exMerged_loads (.cons (p := ["usr".toList, "lib".toList, ".wh.g".toList]) ?_
      (.cons (p := ["usr".toList, "lib".toList, "f".toList]) ?_ .nil))
    · rw [show pathOf (exFile "lib/.wh.g" []) = ["lib".toList] ++ [".wh.g".toList] by decide +kernel]
      exact goes_last exMerged_leads
    · rw [show pathOf (exFile "lib/f" [3]) = ["lib".toList] ++ ["f".toList] by decide +kernel]
      refine goes_last (d := ["usr".toList, "lib".toList]) ?_
      refine .link (nd := nodeOf (exLink "lib" "usr/lib")) (by decide) (by decide +kernel) ⟨_, rfl, rfl, rfl⟩ (by decide) ?_
      rw [if_neg (by decide)]
      change Leads _ [] (comps "usr/lib".toList ++ []) _
      rw [show comps "usr/lib".toList ++ [] = ["usr".toList, "lib".toList] by decide +kernel]
      refine .step (nd := ⟨none, []⟩) (by decide) (by decide +kernel) (nolink rfl) (fun _ => isDir_iff.mpr (by decide)) ?_
      exact .step (nd := nodeOf (exDir "usr/lib/")) (by decide) (by decide +kernel) (nolink (by decide +kernel)) (fun h => absurd rfl h) .here
  · have key : ∀ l ∈ exUpdated, ∀ e ∈ l, Visible (pathOf e).dropLast ∧ (e.header.typeflag = '2' → pathOf e ≠ [] ∧
        e.header.linkname = "usr/lib".toList) := by decide +kernel
    intro l hl e he
    obtain ⟨h1, h2⟩ := key l hl e he
    refine ⟨h1, fun h => (h2 h).1, fun h => ?_⟩
    rw [(h2 h).2]
    exact ⟨⟨by decide, 0, ["usr".toList, "lib".toList], by decide +kernel, by decide +kernel, fun _ => by simp⟩, by decide +kernel⟩
  · have key : ∀ l ∈ exUpdated, ∀ e ∈ l, (pathOf e = [] → e.header.typeflag = '5') ∧ (isMarkerEntry e → e.header.typeflag ≠ '5') := by decide +kernel
    exact fun l hl e he => ⟨(key l hl e he).1, (key l hl e he).2⟩
  · have key : ∀ l ∈ exUpdated, ∀ e ∈ l, outside (clean e.header.name) = false := by decide +kernel
    intro l hl e he h
    rw [← outside_iff, key l hl e he] at h
    cases h

/-- what the code makes of that case -/
example (srt : (Str → Str → Bool) → List Str → List Str) (hs : SortSlice srt) (order : Path → List Str → List Str) (ho : PermOrder order) :
    squash 9 srt order exUpdated = some (.ok [exLink "lib" "usr/lib", exDir "usr/lib/", exFile "usr/lib/.wh.g" [], exFile "usr/lib/f" [3]]) :=
  squash_all (n := 9) (by decide +kernel) 9 (by decide) srt hs order ho

/-- C114 fails for a symlink to "/": with "r" such a link, the whiteout "r/.wh.f" removes "f", but the squashed layer still has it -/
theorem C114_violated (n : Nat) (hn : 9 ≤ n) (srt : (Str → Str → Bool) → List Str → List Str) (hs : SortSlice srt)
    (order : Path → List Str → List Str) (ho : PermOrder order) :
    ∃ W out, LoadsTo emptyView ([[exLink "r" "/", exFile "f" [1]], [exFile "r/.wh.f" []]].flatMap inOrder) W ∧ W ["f".toList] = none ∧
      squash n srt order [[exLink "r" "/", exFile "f" [1]], [exFile "r/.wh.f" []]] = some (.ok out) ∧
      applyLayer emptyView out ["f".toList] = some (nodeOf (exFile "f" [1])) := by
  refine ⟨applyAt (apply (apply emptyView (exLink "r" "/")) (exFile "f" [1])) [".wh.f".toList] (nodeOf (exFile "r/.wh.f" [])),
    [exFile ".wh.f" [], exFile "f" [1], exLink "r" "/"], ?_, by decide +kernel, squash_all (by decide +kernel) n hn srt hs order ho, by decide +kernel⟩
  rw [show [[exLink "r" "/", exFile "f" [1]], [exFile "r/.wh.f" []]].flatMap inOrder = [exLink "r" "/", exFile "f" [1], exFile "r/.wh.f" []] by
    decide +kernel]
  refine .cons (goes_plain (by decide +kernel) (by decide +kernel) (by decide +kernel)) (.cons (goes_plain (by decide +kernel) (by decide +kernel) (by decide +kernel)) (.cons ?_ .nil))
  rw [show pathOf (exFile "r/.wh.f" []) = ["r".toList] ++ [".wh.f".toList] by decide +kernel, show pathOf (exLink "r" "/") = ["r".toList] by decide +kernel]
  refine goes_last (d := []) ?_
  refine .link (nd := nodeOf (exLink "r" "/")) (by decide) (by decide +kernel) ⟨_, rfl, rfl, rfl⟩ (by decide) ?_
  rw [if_pos (by decide)]
  change Leads _ [] (comps "/".toList ++ []) _
  rw [show comps "/".toList ++ [] = [] by decide +kernel]
  exact .here

end Squash
