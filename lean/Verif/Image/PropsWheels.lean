import Verif.Image.PropsComplete
/-! C140: several layers, or wheels, that do not get into each other's way, put on top of one image. -/
namespace Onto
open Go Fsutil Bdist
open Python (Platform)
open Squash (Entry Node FS loadLayers openFile)
open Squash.Spec (isMarker Visible asDir Outside isFile LoadsTo LinksFine emptyView inOrder StraightTarget)

/-! ### specification -/

/-- two layers that share nothing but directories: what is in both is a directory in both, and only directories of one have entries of the
other below them -/
structure Spec.Apart (as bs : List (Hdr × Bytes)) : Prop where
  same : ∀ a ∈ as, ∀ b ∈ bs, a.1.name = b.1.name → a.1.typeflag = typeDir ∧ b.1.typeflag = typeDir
  left : ∀ a ∈ as, ∀ b ∈ bs, Fsutil.Spec.Below b.1.name a.1.name → a.1.typeflag = typeDir
  right : ∀ a ∈ as, ∀ b ∈ bs, Fsutil.Spec.Below a.1.name b.1.name → b.1.typeflag = typeDir

/-- The image `T` is the image `S` with the files of all these layers put in: each file is there, with its type, mode, size, link and
content, and can be opened; directories and all that leads to the entries are directories; nothing is below the files; all else is
as it was. -/
structure Spec.AllAdded (rest : Hdr → Str) (n : Nat) (S T : FS) (layers : List (List (Hdr × Bytes))) : Prop where
  there : ∀ l ∈ layers, ∀ e ∈ l, e.1.typeflag ≠ typeDir → ∀ ps, Spec.Named e.1.name ps → T.get? ps = some (Spec.node rest e)
  opens : ∀ l ∈ layers, ∀ e ∈ l, e.1.typeflag ≠ typeDir → e.1.typeflag ≠ typeSymlink → ∀ ps, Spec.Named e.1.name ps →
    openFile n T e.1.name = some (.ok (ps, ps))
  dirs : ∀ l ∈ layers, ∀ e ∈ l, ∀ ps, Spec.Named e.1.name ps → ∀ q, q <+: ps → q ≠ ps ∨ e.1.typeflag = typeDir →
    ∃ nd, T.get? q = some nd ∧ ¬ isFile nd
  below : ∀ l ∈ layers, ∀ e ∈ l, e.1.typeflag ≠ typeDir → ∀ ps, Spec.Named e.1.name ps → ∀ q, Visible q → ps <+: q → q ≠ ps → T.get? q = none
  other : ∀ q, Visible q → (∀ l ∈ layers, ∀ e ∈ l, ∀ ps, Spec.Named e.1.name ps → ¬ q <+: ps ∧ (e.1.typeflag ≠ typeDir → ¬ ps <+: q)) →
    T.get? q = S.get? q

/-! ### names of two layers -/

theorem named_name {a b : Str} {ps : List Str} (ha : Spec.Named a ps) (hb : Spec.Named b ps) : a = b := by rw [ha.2.2, hb.2.2]

/-- where the path of a file of one layer and that of an entry of the other are not in each other's way -/
theorem Spec.Apart.file {as bs : List (Hdr × Bytes)} (h : Spec.Apart as bs) {a b : Hdr × Bytes} (ha : a ∈ as) (hb : b ∈ bs)
    {ps qs : List Str} (hp : Spec.Named a.1.name ps) (hq : Spec.Named b.1.name qs) (hd : a.1.typeflag ≠ typeDir) :
    ¬ ps <+: qs ∧ (b.1.typeflag ≠ typeDir → ¬ qs <+: ps) := by
  constructor
  · intro hpre
    by_cases e : ps = qs
    · subst e; exact hd (h.same a ha b hb (named_name hp hq)).1
    · exact hd (h.left a ha b hb (prefix_below hp hq hpre e))
  · intro hbd hpre
    by_cases e : ps = qs
    · subst e; exact hd (h.same a ha b hb (named_name hp hq)).1
    · exact hbd (h.right a ha b hb (prefix_below hq hp hpre (Ne.symm e)))

theorem Spec.Apart.symm {as bs : List (Hdr × Bytes)} (h : Spec.Apart as bs) : Spec.Apart bs as :=
  ⟨fun b hb a ha e => (h.same a ha b hb e.symm).symm, fun b hb a ha e => h.right a ha b hb e, fun b hb a ha e => h.left a ha b hb e⟩

/-! ### what one more layer leaves -/

theorem asDir_not_file (x : Option Node) : ¬ isFile (asDir x) := by
  unfold asDir
  split
  · split
    · rintro ⟨_, h, _⟩; cases h
    · rename_i h; exact h
  · rintro ⟨_, h, _⟩; cases h

theorem node_dir {rest : Hdr → Str} {e : Hdr × Bytes} (h : e.1.typeflag = typeDir) : ¬ isFile (Spec.node rest e) := by
  rintro ⟨hd, h1, h2⟩
  cases h1
  exact h2 h

theorem named_visible {name : Str} {ps : List Str} (hp : Spec.Named name ps) : Visible ps := fun c hc => (hp.2.1 c hc).2

/-- a file that is above, at or below no file of the layer, and a directory that is not below or at one, stays -/
theorem Spec.Added.dir_stays {rest : Hdr → Str} {n : Nat} {S T : FS} {es : List (Hdr × Bytes)} (h : Spec.Added rest n S T es)
    {q : List Str} (hv : Visible q) {nd : Node} (hs : S.get? q = some nd) (hd : ¬ isFile nd)
    (hf : ∀ e ∈ es, ∀ ps, Spec.Named e.1.name ps → e.1.typeflag ≠ typeDir → ¬ ps <+: q) : ∃ nd, T.get? q = some nd ∧ ¬ isFile nd := by
  by_cases h0 : ∃ e ∈ es, Spec.Named e.1.name q
  · obtain ⟨e, he, hn⟩ := h0
    refine ⟨_, h.there e he q hn, node_dir ?_⟩
    by_cases ht : e.1.typeflag = typeDir
    · exact ht
    · exact absurd (List.prefix_refl q) (hf e he q hn ht)
  · by_cases h1 : ∃ e ∈ es, ∃ ps, Spec.Named e.1.name ps ∧ q <+: ps
    · obtain ⟨e, he, ps, hn, hq⟩ := h1
      exact ⟨_, h.above e he ps hn q hq (fun e' he' hn' => h0 ⟨e', he', hn'⟩), asDir_not_file _⟩
    · refine ⟨nd, ?_, hd⟩
      rw [h.other q hv, hs]
      intro e he ps hn
      exact ⟨fun hq => h1 ⟨e, he, ps, hn, hq⟩, fun ht => hf e he ps hn ht⟩

/-- the layers one after the other -/
inductive Chain (rest : Hdr → Str) (n : Nat) : FS → List (List (Hdr × Bytes)) → FS → Prop where
  | nil {S : FS} : Chain rest n S [] S
  | cons {S U T : FS} {l : List (Hdr × Bytes)} {ls : List (List (Hdr × Bytes))} : Spec.Added rest n S U l → Chain rest n U ls T →
      Chain rest n S (l :: ls) T

/-- what is apart from all the layers stays -/
theorem Chain.other {rest : Hdr → Str} {n : Nat} {S T : FS} {ls : List (List (Hdr × Bytes))} (h : Chain rest n S ls T) {q : List Str} (hv : Visible q)
    (hq : ∀ l ∈ ls, ∀ e ∈ l, ∀ ps, Spec.Named e.1.name ps → ¬ q <+: ps ∧ (e.1.typeflag ≠ typeDir → ¬ ps <+: q)) : T.get? q = S.get? q := by
  induction h with
  | nil => rfl
  | cons h1 _ ih =>
    rw [ih (fun l hl => hq l (List.mem_cons_of_mem _ hl)), h1.other q hv (hq _ (by simp))]

theorem Chain.dir_stays {rest : Hdr → Str} {n : Nat} {S T : FS} {ls : List (List (Hdr × Bytes))} (h : Chain rest n S ls T) {q : List Str} (hv : Visible q)
    (hf : ∀ l ∈ ls, ∀ e ∈ l, ∀ ps, Spec.Named e.1.name ps → e.1.typeflag ≠ typeDir → ¬ ps <+: q) :
    (∃ nd, S.get? q = some nd ∧ ¬ isFile nd) → ∃ nd, T.get? q = some nd ∧ ¬ isFile nd := by
  induction h with
  | nil => exact id
  | cons h1 _ ih =>
    rintro ⟨nd, h2, h3⟩
    exact ih (fun l hl => hf l (List.mem_cons_of_mem _ hl)) (h1.dir_stays hv h2 h3 (hf _ (by simp)))

/-- all but the opening -/
theorem Chain.all {rest : Hdr → Str} {n : Nat} {S T : FS} {ls : List (List (Hdr × Bytes))} (h : Chain rest n S ls T)
    (hap : ls.Pairwise Spec.Apart) (hnm : ∀ l ∈ ls, ∀ e ∈ l, ∃ ps, Spec.Named e.1.name ps)
    (htr : ∀ l ∈ ls, ∀ a ∈ l, ∀ b ∈ l, Fsutil.Spec.Below b.1.name a.1.name → a.1.typeflag = typeDir) :
    (∀ l ∈ ls, ∀ e ∈ l, e.1.typeflag ≠ typeDir → ∀ ps, Spec.Named e.1.name ps → T.get? ps = some (Spec.node rest e)) ∧
    (∀ l ∈ ls, ∀ e ∈ l, ∀ ps, Spec.Named e.1.name ps → ∀ q, q <+: ps → q ≠ ps ∨ e.1.typeflag = typeDir → ∃ nd, T.get? q = some nd ∧ ¬ isFile nd) ∧
    (∀ l ∈ ls, ∀ e ∈ l, e.1.typeflag ≠ typeDir → ∀ ps, Spec.Named e.1.name ps → ∀ q, Visible q → ps <+: q → q ≠ ps → T.get? q = none) := by
  induction h with
  | nil => exact ⟨by simp, by simp, by simp⟩
  | @cons S U T l ls h1 h2 ih =>
    obtain ⟨hap1, hap2⟩ := List.pairwise_cons.mp hap
    obtain ⟨i1, i2, i3⟩ := ih hap2 (fun l hl => hnm l (List.mem_cons_of_mem _ hl)) (fun l hl => htr l (List.mem_cons_of_mem _ hl))
    refine ⟨?_, ?_, ?_⟩
    · intro l' hl' e he hd ps hp
      rcases List.mem_cons.mp hl' with rfl | hl'
      · rw [h2.other (named_visible hp) (fun l2 hl2 e' he' qs hq => (hap1 l2 hl2).file he he' hp hq hd)]
        exact h1.there e he ps hp
      · exact i1 l' hl' e he hd ps hp
    · intro l' hl' e he ps hp q hq hd
      rcases List.mem_cons.mp hl' with rfl | hl'
      · have hvq : Visible q := fun c hc => named_visible hp c (hq.subset hc)
        refine h2.dir_stays hvq ?_ ?_
        · intro l2 hl2 e' he' qs hq' hd' hpre
          have := (hap1 l2 hl2).symm.file he' he hq' hp hd'
          exact this.1 (hpre.trans hq)
        · by_cases h0 : ∃ e' ∈ l', Spec.Named e'.1.name q
          · obtain ⟨e', he', hn'⟩ := h0
            refine ⟨_, h1.there e' he' q hn', node_dir ?_⟩
            by_cases e0 : q = ps
            · subst e0
              rcases hd with hd | hd
              · exact absurd rfl hd
              · -- the two entries have the same name
                by_cases ht : e'.1.typeflag = typeDir
                · exact ht
                · exfalso
                  have a1 := h1.there e' he' q hn'
                  have a2 := h1.there e he q hp
                  rw [a1] at a2
                  injection a2 with a2
                  have a3 := congrArg (fun nd : Node => nd.header.map (·.typeflag)) a2
                  simp only [Spec.node, Spec.entry, Option.map_some, Option.some.injEq] at a3
                  exact ht (a3.trans hd)
            · exact htr l' (by simp) e' he' e he (prefix_below hn' hp hq e0)
          · exact ⟨_, h1.above e he ps hp q hq (fun e' he' hn' => h0 ⟨e', he', hn'⟩), asDir_not_file _⟩
      · exact i2 l' hl' e he ps hp q hq hd
    · intro l' hl' e he hd ps hp q hv hq hne
      rcases List.mem_cons.mp hl' with rfl | hl'
      · rw [h2.other hv, h1.below e he ps hp hd q hv hq hne]
        intro l2 hl2 e' he' qs hq'
        have a := (hap1 l2 hl2).file he he' hp hq' hd
        refine ⟨fun hpre => a.1 (hq.trans hpre), fun hd' hpre => ?_⟩
        rcases List.prefix_or_prefix_of_prefix hq hpre with c | c
        · exact a.1 c
        · exact a.2 hd' c
      · exact i3 l' hl' e he hd ps hp q hv hq hne

/-! ### loading -/

/-- layers like those that this repository makes: trees of files, with entries for all directories, each before what is below it, and
symlinks as in C98 -/
structure Spec.Built (es : List (Hdr × Bytes)) : Prop where
  tree : Spec.Tree es
  first : Spec.ParentsFirst es
  links : ∀ e ∈ es, e.1.typeflag = typeSymlink → StraightTarget e.1.linkname ∧ Visible (Squash.Spec.comps e.1.linkname)

theorem built_links {rest : Hdr → Str} {es : List (Hdr × Bytes)} (h : Spec.Built es) : ∀ e ∈ es.map (Spec.entry rest), LinksFine e := by
  intro e he
  have hv := (tree_layer (rest := rest) h.tree).visible e he
  have hpb := parents_before (rest := rest) h.tree h.first
  refine ⟨fun c hc => hv c (List.dropLast_subset _ hc), ?_, ?_⟩
  · intro _
    obtain ⟨p1, p2, e1⟩ := List.append_of_mem he
    exact (hpb p1 e p2 e1).1
  · intro ht
    obtain ⟨x, hx, rfl⟩ := List.mem_map.mp he
    exact h.links x hx ht

theorem chain_loads {rest : Hdr → Str} : ∀ (ls : List (List (Hdr × Bytes))) (base : List (List Entry)) (V : Squash.Spec.View),
    (∀ l ∈ ls, Spec.Built l) → (∀ l ∈ base, ∀ e ∈ l, ¬ Outside e.header.name) → (∀ l ∈ base, ∀ e ∈ l, LinksFine e) →
    LoadsTo emptyView (base.flatMap inOrder) V →
    ∃ n0 S T W, Squash.Kept False S V ∧ Squash.Kept False T W ∧ ∀ n, n0 ≤ n → loadLayers n base false = some (.ok S) ∧
      loadLayers n (base ++ ls.map (·.map (Spec.entry rest))) false = some (.ok T) ∧ Chain rest n S ls T := by
  intro ls
  induction ls with
  | nil =>
    intro base V _ hin hf hw
    have e0 : ∀ es : List Entry, es.map (Squash.dropBody false) = es := by
      intro es
      have : Squash.dropBody false = id := by funext e; rfl
      rw [this]; simp
    have k0 : Squash.Kept False Squash.emptyFS emptyView :=
      ⟨False.elim, Squash.inv_empty false, fun q _ => Squash.get?_emptyFS q, by
        intro p l h
        exact (Squash.sim_empty (fun _ => False)).link p l h |>.elim⟩
    obtain ⟨n1, S, s1, kS⟩ := Squash.loadFrom_kept (oc := false) base Squash.emptyFS emptyView V k0
      (fun l h1 e h2 => Squash.inside_false (hin l h1 e h2)) hf False.elim (by rw [e0]; exact hw)
    refine ⟨n1, S, S, V, kS, kS, fun n hn => ⟨s1 n hn, ?_, .nil⟩⟩
    rw [List.map_nil, List.append_nil]
    exact s1 n hn
  | cons l ls ih =>
    intro base V hb hin hf hw
    have hl := hb l (by simp)
    obtain ⟨n0, S, U, kS, _, h1⟩ := complete_added (rest := rest) hl.tree hl.first hl.links hin hf hw
    have htl := tree_layer (rest := rest) hl.tree
    obtain ⟨n1, S', T, W, _, kT, h2⟩ := ih (base ++ [l.map (Spec.entry rest)])
      (Squash.Spec.applyLayer V (l.map (Spec.entry rest))) (fun l' hl' => hb l' (List.mem_cons_of_mem _ hl'))
      (by
        intro l' hl' e he
        rcases List.mem_append.mp hl' with h | h
        · exact hin l' h e he
        · rw [List.mem_singleton] at h; subst h; exact htl.inside e he)
      (by
        intro l' hl' e he
        rcases List.mem_append.mp hl' with h | h
        · exact hf l' h e he
        · rw [List.mem_singleton] at h; subst h; exact built_links hl e he)
      (by
        rw [List.flatMap_append]
        refine Squash.loadsTo_append hw ?_
        rw [List.flatMap_cons, List.flatMap_nil, List.append_nil]
        exact Squash.complete_loads htl (parents_before hl.tree hl.first) V)
    have hU : S' = U := by
      have a := (h1 (n0 + n1) (by omega)).2.1
      have b := (h2 (n0 + n1) (by omega)).1
      rw [a] at b
      cases b
      rfl
    subst hU
    refine ⟨n0 + n1, S, T, W, kS, kT, fun n hn => ⟨(h1 n (by omega)).1, ?_, .cons (h1 n (by omega)).2.2 (h2 n (by omega)).2.2⟩⟩
    have := (h2 n (by omega)).2.1
    rw [List.append_assoc] at this
    exact this

theorem chain_allAdded {rest : Hdr → Str} {n : Nat} {S T : FS} {W : Squash.Spec.View} {ls : List (List (Hdr × Bytes))} (hb : ∀ l ∈ ls, Spec.Built l)
    (hap : ls.Pairwise Spec.Apart) (kT : Squash.Kept False T W) (h : Chain rest n S ls T) (hn : 2 ≤ n) : Spec.AllAdded rest n S T ls := by
  obtain ⟨a1, a2, a3⟩ := h.all hap (fun l hl => (hb l hl).tree.named) (fun l hl => (hb l hl).tree.tree)
  refine ⟨a1, ?_, a2, a3, fun q hv hq => h.other hv hq⟩
  intro l hl e he hd ht ps hp
  obtain ⟨k, rfl⟩ : ∃ k, n = k + 2 := ⟨n - 2, by omega⟩
  have hg := a1 l hl e he hd ps hp
  rw [← named_comps hp] at hg ⊢
  refine (Squash.open_exact kT.inv (named_valid hp) ?_).1 _ hg ?_
  · intro t h3 h4
    rw [named_comps hp] at h3 h4
    obtain ⟨nd, h5, h6⟩ := a2 l hl e he ps hp t h3 (Or.inl h4)
    rw [Squash.link_of_get h5]
    cases hk : nd.link with
    | none => rfl
    | some x =>
      exfalso
      apply h6
      unfold Node.link at hk
      split at hk
      · rename_i hdr hh
        split at hk
        · rename_i hs
          exact ⟨hdr, hh, by rw [hs]; decide⟩
        · cases hk
      · cases hk
  · simp only [Squash.Node.link, Spec.node, Spec.entry]
    exact if_neg ht

/-- **C140** Layers that share nothing but directories, put on top of an image one after the other: every file of every layer is in the
image, as its layer has it, and can be opened; nothing else changes. -/
theorem C140_layers {rest : Hdr → Str} {ls : List (List (Hdr × Bytes))} (hb : ∀ l ∈ ls, Spec.Built l) (hap : ls.Pairwise Spec.Apart)
    {base : List (List Entry)} (hin : ∀ l ∈ base, ∀ e ∈ l, ¬ Outside e.header.name) (hf : ∀ l ∈ base, ∀ e ∈ l, LinksFine e)
    {V : Squash.Spec.View} (hw : LoadsTo emptyView (base.flatMap inOrder) V) :
    ∃ n0 S T, (∀ q, Visible q → S.get? q = V q) ∧ ∀ n, n0 ≤ n → loadLayers n base false = some (.ok S) ∧
      loadLayers n (base ++ ls.map (·.map (Spec.entry rest))) false = some (.ok T) ∧ Spec.AllAdded rest n S T ls := by
  obtain ⟨n0, S, T, W, kS, kT, h⟩ := chain_loads (rest := rest) ls base V hb hin hf hw
  exact ⟨n0 + 2, S, T, kS.view, fun n hn => ⟨(h n (by omega)).1, (h n (by omega)).2.1, chain_allAdded hb hap kT (h n (by omega)).2.2 (by omega)⟩⟩

/-- a file of the image that is new, or other than it was, is a file of one of the layers -/
theorem allAdded_file {rest : Hdr → Str} {n : Nat} {S T : FS} {ls : List (List (Hdr × Bytes))} (h : Spec.AllAdded rest n S T ls)
    {q : List Str} (hv : Visible q) {nd : Node} (hnd : T.get? q = some nd) (hf : isFile nd) (hne : T.get? q ≠ S.get? q) :
    ∃ l ∈ ls, ∃ e ∈ l, Spec.Named e.1.name q ∧ e.1.typeflag ≠ typeDir ∧ nd = Spec.node rest e := by
  by_cases h0 : ∃ l ∈ ls, ∃ e ∈ l, Spec.Named e.1.name q ∧ e.1.typeflag ≠ typeDir
  · obtain ⟨l, hl, e, he, hn, hd⟩ := h0
    have := h.there l hl e he hd q hn
    rw [hnd] at this
    cases this
    exact ⟨l, hl, e, he, hn, hd, rfl⟩
  · exfalso
    apply hne
    refine h.other q hv ?_
    intro l hl e he ps hp
    constructor
    · intro hpre
      obtain ⟨nd', h1, h2⟩ := h.dirs l hl e he ps hp q hpre (by
        by_cases e0 : q = ps
        · right
          subst e0
          by_cases hd : e.1.typeflag = typeDir
          · exact hd
          · exact absurd ⟨l, hl, e, he, hp, hd⟩ h0
        · exact Or.inl e0)
      rw [hnd] at h1
      cases h1
      exact h2 hf
    · intro hd hpre
      by_cases e0 : q = ps
      · subst e0; exact h0 ⟨l, hl, e, he, hp, hd⟩
      · rw [h.below l hl e he hd ps hp q hv hpre e0] at hnd
        cases hnd

theorem allAdded_files {rest : Hdr → Str} {n n' : Nat} {S T T' : FS} {ls ls' : List (List (Hdr × Bytes))} (h : Spec.AllAdded rest n S T ls)
    (h' : Spec.AllAdded rest n' S T' ls') (hsub : ∀ l, l ∈ ls ↔ l ∈ ls') {q : List Str} (hv : Visible q) {nd : Node} (hf : isFile nd)
    (hnd : T.get? q = some nd) : T'.get? q = some nd := by
  by_cases hne : T.get? q = S.get? q
  · by_cases h0 : ∃ l ∈ ls, ∃ e ∈ l, Spec.Named e.1.name q ∧ e.1.typeflag ≠ typeDir
    · obtain ⟨l, hl, e, he, hn, hd⟩ := h0
      have := h.there l hl e he hd q hn
      rw [hnd] at this
      cases this
      exact h'.there l ((hsub l).mp hl) e he hd q hn
    · rw [h'.other q hv, ← hne, hnd]
      intro l hl e he ps hp
      have hl := (hsub l).mpr hl
      constructor
      · intro hpre
        obtain ⟨nd', h1, h2⟩ := h.dirs l hl e he ps hp q hpre (by
          by_cases e0 : q = ps
          · right
            subst e0
            by_cases hd : e.1.typeflag = typeDir
            · exact hd
            · exact absurd ⟨l, hl, e, he, hp, hd⟩ h0
          · exact Or.inl e0)
        rw [hnd] at h1
        cases h1
        exact h2 hf
      · intro hd hpre
        by_cases e0 : q = ps
        · subst e0; exact h0 ⟨l, hl, e, he, hp, hd⟩
        · rw [h.below l hl e he hd ps hp q hv hpre e0] at hnd
          cases hnd
  · obtain ⟨l, hl, e, he, hn, hd, rfl⟩ := allAdded_file h hv hnd hf hne
    exact h'.there l ((hsub l).mp hl) e he hd q hn

/-- **C140** (any order) Put on top of the image in any other order, such layers give an image with the same files. -/
theorem C140_order {rest : Hdr → Str} {ls ls' : List (List (Hdr × Bytes))} (hperm : ls.Perm ls') (hb : ∀ l ∈ ls, Spec.Built l) (hap : ls.Pairwise Spec.Apart)
    {base : List (List Entry)} (hin : ∀ l ∈ base, ∀ e ∈ l, ¬ Outside e.header.name) (hf : ∀ l ∈ base, ∀ e ∈ l, LinksFine e)
    {V : Squash.Spec.View} (hw : LoadsTo emptyView (base.flatMap inOrder) V) :
    ∃ n0 T T', (∀ n, n0 ≤ n → loadLayers n (base ++ ls.map (·.map (Spec.entry rest))) false = some (.ok T) ∧
      loadLayers n (base ++ ls'.map (·.map (Spec.entry rest))) false = some (.ok T')) ∧
      ∀ q nd, Visible q → isFile nd → (T.get? q = some nd ↔ T'.get? q = some nd) := by
  obtain ⟨n0, S, T, _, h⟩ := C140_layers (rest := rest) hb hap hin hf hw
  obtain ⟨n1, S', T', _, h'⟩ := C140_layers (rest := rest) (ls := ls') (fun l hl => hb l (hperm.mem_iff.mpr hl))
    (hperm.pairwise hap (fun h => h.symm)) hin hf hw
  have hs : S = S' := by
    have a := (h (n0 + n1) (by omega)).1
    have b := (h' (n0 + n1) (by omega)).1
    rw [a] at b
    cases b
    rfl
  subst hs
  have a := (h (n0 + n1) (by omega)).2.2
  have b := (h' (n0 + n1) (by omega)).2.2
  refine ⟨n0 + n1, T, T', fun n hn => ⟨(h n (by omega)).2.1, (h' n (by omega)).2.1⟩, fun q nd hv hfile => ⟨?_, ?_⟩⟩
  · exact allAdded_files a b (fun l => hperm.mem_iff) hv hfile
  · exact allAdded_files b a (fun l => hperm.mem_iff.symm) hv hfile

/-! ### wheels -/

/-- `layer` is what `ocibuild layer wheel` makes of the ordinary wheel `zip`: a tree of files without names like whiteout markers -/
structure Spec.WheelLayer (w : World) (env : HookEnv) (plat : Platform) (zip : List ZFile) (layer : List (Hdr × Bytes)) : Prop where
  ordinary : Bdist.Spec.Ordinary w env plat zip
  run : CommandRun w env plat zip (.ok layer)
  mark : ∀ e ∈ layer, ∀ c ∈ split '/' e.1.name, ¬ isMarker c
  dot : ∀ e ∈ layer, e.1.name ≠ ".".toList
  tree : ∀ a ∈ layer, ∀ b ∈ layer, Fsutil.Spec.Below b.1.name a.1.name → a.1.typeflag = typeDir

theorem wheel_built {w : World} (hsort : SortSlice w.sortSlice) {env : HookEnv} (hrows : SortSlice env.sortRows) {plat : Platform} {zip : List ZFile}
    {layer : List (Hdr × Bytes)} (h : Spec.WheelLayer w env plat zip layer) : Spec.Built layer := by
  obtain ⟨honce, helems⟩ := command_names hsort hrows h.ordinary h.run
  obtain ⟨hfirst, htypes⟩ := command_shape hsort hrows h.ordinary h.run
  have hnm := layer_named helems h.mark h.dot
  refine ⟨⟨fun e he => ⟨_, hnm e he⟩, honce, h.tree⟩, hfirst, ?_⟩
  intro e he hs
  rcases htypes e he with h | h <;> rw [h] at hs <;> exact absurd hs (by decide)

/-- a wheel, what it was installed with, and the layer -/
structure Spec.Wheel where
  w : World
  env : HookEnv
  plat : Platform
  zip : List ZFile
  layer : List (Hdr × Bytes)

/-- In the image `T` the wheel `zip` has its RECORD, in its `.dist-info` directory in purelib or platlib, with these rows, for paths
relative to `base`. -/
def Spec.RecordIn (env : HookEnv) (plat : Platform) (zip : List ZFile) (T : FS) (base record : Str) (rows : List (List Str)) : Prop :=
  ∃ info, Bdist.Spec.TheInfoDir zip info ∧ ('/' :: base = plat.scheme.pureLib ∨ '/' :: base = plat.scheme.platLib) ∧
    record = base ++ "/".toList ++ info ++ "/RECORD".toList ∧
    ∃ hdr, T.get? (split '/' record) = some ⟨some hdr, env.csvWrite rows⟩ ∧ hdr.typeflag = typeReg

/-- **C140** (wheels) The layers of wheels that share nothing but directories, put on top of an image one after the other: each wheel's
RECORD is in the image, and each of its rows is that of a file of the wheel that is in the image as the wheel's layer has it.  Every
visible file of the image that was not there before, or was another one, has a row in the RECORD of the wheel it comes from. -/
theorem C140_wheels (wheels : List Spec.Wheel) (hsort : ∀ x ∈ wheels, SortSlice x.w.sortSlice) (hrows : ∀ x ∈ wheels, SortSlice x.env.sortRows)
    (hdigest : ∀ x ∈ wheels, x.env.digest = x.w.digest) (hw : ∀ x ∈ wheels, Spec.WheelLayer x.w x.env x.plat x.zip x.layer)
    (hap : (wheels.map (·.layer)).Pairwise Spec.Apart) (rest : Hdr → Str) (below : List (List Entry))
    (hin : ∀ l ∈ below, ∀ e ∈ l, ¬ Outside e.header.name) (hf : ∀ l ∈ below, ∀ e ∈ l, LinksFine e)
    (V : Squash.Spec.View) (hV : LoadsTo emptyView (below.flatMap inOrder) V) :
    ∃ n0 S T, (∀ q, Visible q → S.get? q = V q) ∧ ∀ n, n0 ≤ n → loadLayers n below false = some (.ok S) ∧
      loadLayers n (below ++ wheels.map (·.layer.map (Spec.entry rest))) false = some (.ok T) ∧
      (∀ x ∈ wheels, ∃ q base record rows, x.plat.init = .ok q ∧ Spec.RecordIn x.env x.plat x.zip T base record rows ∧
        ∀ row ∈ rows, ∃ e ∈ x.layer, ∃ p, Spec.Named e.1.name p ∧ T.get? p = some (Spec.node rest e) ∧
          Bdist.Spec.LayerRow x.w.digest q base record e row) ∧
      ∀ p nd, Visible p → T.get? p = some nd → isFile nd → T.get? p ≠ S.get? p →
        ∃ x ∈ wheels, ∃ e ∈ x.layer, Spec.Named e.1.name p ∧ nd = Spec.node rest e ∧
          ∃ q base record rows, x.plat.init = .ok q ∧ Spec.RecordIn x.env x.plat x.zip T base record rows ∧
            ∃ row ∈ rows, Bdist.Spec.LayerRow x.w.digest q base record e row := by
  have hb : ∀ l ∈ wheels.map (·.layer), Spec.Built l := by
    intro l hl
    obtain ⟨x, hx, rfl⟩ := List.mem_map.mp hl
    exact wheel_built (hsort x hx) (hrows x hx) (hw x hx)
  obtain ⟨n0, S, T, hS, h⟩ := C140_layers (rest := rest) hb hap hin hf hV
  refine ⟨n0, S, T, hS, fun n hn => ?_⟩
  have ha := (h n hn).2.2
  have key : ∀ x ∈ wheels, ∃ q base record rows, x.plat.init = .ok q ∧ Spec.RecordIn x.env x.plat x.zip T base record rows ∧
      (∀ row ∈ rows, ∃ e ∈ x.layer, ∃ p, Spec.Named e.1.name p ∧ T.get? p = some (Spec.node rest e) ∧ Bdist.Spec.LayerRow x.w.digest q base record e row) ∧
      ∀ e ∈ x.layer, e.1.typeflag ≠ typeDir → ∃ row ∈ rows, Bdist.Spec.LayerRow x.w.digest q base record e row := by
    intro x hx
    have hx' : x.layer ∈ wheels.map (·.layer) := List.mem_map.mpr ⟨x, hx, rfl⟩
    obtain ⟨_, helems⟩ := command_names (hsort x hx) (hrows x hx) (hw x hx).ordinary (hw x hx).run
    have hnm := layer_named helems (hw x hx).mark (hw x hx).dot
    obtain ⟨base, info, rows, r1, r2, ⟨er, her, r3, r4, r5⟩, _, r6, r7⟩ :=
      C91_record_partial x.w (hsort x hx) x.env (hrows x hx) (hdigest x hx) x.plat x.zip (hw x hx).ordinary x.layer (hw x hx).run
    have herd : er.1.typeflag ≠ typeDir := by rw [r4]; decide
    obtain ⟨q, hq⟩ : ∃ q, x.plat.init = .ok q := by
      obtain ⟨row, _, q, hq, _⟩ := r6 er her herd
      exact ⟨q, hq⟩
    have hqq : ∀ q', x.plat.init = .ok q' → q' = q := by intro q' h; rw [hq] at h; cases h; rfl
    refine ⟨q, base, _, rows, hq, ⟨info, r1, r2, rfl, ?_⟩, ?_, ?_⟩
    · have := ha.there _ hx' er her herd _ (hnm er her)
      rw [r3] at this
      unfold Spec.node at this
      rw [r5] at this
      exact ⟨_, this, r4⟩
    · intro row hrow
      obtain ⟨e, he, hd, q', hq', hr⟩ := r7 row hrow
      rw [hqq q' hq'] at hr
      exact ⟨e, he, _, hnm e he, ha.there _ hx' e he hd _ (hnm e he), hr⟩
    · intro e he hd
      obtain ⟨row, hrow, q', hq', hr⟩ := r6 e he hd
      rw [hqq q' hq'] at hr
      exact ⟨row, hrow, hr⟩
  refine ⟨(h n hn).1, ?_, ?_, ?_⟩
  · have := (h n hn).2.1
    rwa [List.map_map] at this
  · intro x hx
    obtain ⟨q, base, record, rows, k1, k2, k3, _⟩ := key x hx
    exact ⟨q, base, record, rows, k1, k2, k3⟩
  · intro p nd hv hnd hfile hne
    obtain ⟨l, hl, e, he, hn', hd, rfl⟩ := allAdded_file ha hv hnd hfile hne
    obtain ⟨x, hx, rfl⟩ := List.mem_map.mp hl
    obtain ⟨q, base, record, rows, k1, k2, _, k4⟩ := key x hx
    exact ⟨x, hx, e, he, hn', rfl, q, base, record, rows, k1, k2, k4 e he hd⟩

/-! ### examples -/

/-- another wheel, with a package of its own -/
def otherZip : List ZFile := [sampleFile "n/b.py" [5], sampleFile "y.dist-info/WHEEL" [3], sampleFile "y.dist-info/RECORD" [4]]

def otherCode : Ref := memFile 7 "l/pure/n/__pycache__/b.pyc".toList 0o644 [9]

/-- installed a day later -/
def otherWorld : World := { toyWorld otherZip with
  compile := fun _ _ _ => .ok [otherCode], now := 86400000000000
  csv := fun _ => some (["y.dist-info/RECORD".toList, [], []] :: (otherZip.take 2).map (fun f =>
    [f.hdr.name, "sha256=".toList ++ toyDigest [] (f.content.getD []), itoa (f.content.getD []).length])) }

theorem other_compiler : Bdist.Spec.ByteCompiler otherWorld.toEnv toyPlat.scheme := by
  have hrel : Bdist.Spec.Rel otherCode.fullName := by unfold Bdist.Spec.Rel; decide +kernel
  refine ⟨?_, ?_, ?_, ?_⟩
  · intro t d s s' _ _ _
    refine Or.inr ⟨[otherCode], [otherCode], rfl, rfl, List.Perm.refl _, by simp, ?_⟩
    intro o ho
    rw [List.mem_singleton.mp ho]; exact hrel
  · intro t d s outs _ h o ho
    cases h
    rw [List.mem_singleton.mp ho]; exact hrel
  · intro t d s outs _ _ h o ho
    cases h
    rw [List.mem_singleton.mp ho]
    exact ⟨"purelib".toList, "/l/pure".toList, by decide +kernel, Or.inr ⟨"n/__pycache__/b.pyc".toList, by decide +kernel⟩⟩
  · intro t d s outs _ _ h o ho
    cases h
    rw [List.mem_singleton.mp ho]
    exact ⟨_, _, "l/pure/n/__pycache__/b".toList, rfl, rfl, rfl, by decide +kernel⟩

theorem other_apart : Bdist.Spec.WheelNoClash otherWorld.toEnv toyPlat otherZip := by
  intro p dir get hp hw
  rw [toy_platform] at hp
  cases hp
  have hw' : ∃ get, parseWheel otherWorld.toEnv otherZip = .ok ("y.dist-info".toList, get) ∧ get "Root-Is-Purelib".toList = "true".toList := ⟨_, rfl, rfl⟩
  obtain ⟨get', hw', hroot⟩ := hw'
  rw [hw'] at hw
  cases hw
  refine noClash_check ?_
  unfold rootDir
  rw [if_pos hroot]
  decide +kernel

theorem other_time {p : Platform} {t t' : Int} {zip : List ZFile} {r : Outcome (Map Ref × Str)} (h : VfsRun otherWorld.toEnv p none t zip r) :
    VfsRun otherWorld.toEnv p none t' zip r := by
  have hs : ∀ {dst dir vfs x}, SpreadRun otherWorld.toEnv p t dst dir vfs x → SpreadRun otherWorld.toEnv p t' dst dir vfs x := by
    intro dst dir vfs x h
    cases h with
    | spreadFails h => exact .spreadFails h
    | rewritePanics h1 h2 h3 => exact .rewritePanics h1 h2 h3
    | rewriteFails h1 h2 h3 => exact .rewriteFails h1 h2 h3
    | compileFails h1 h2 h3 h4 h5 => exact .compileFails h1 h2 h3 h4 h5
    | done h1 h2 h3 h4 h5 => exact .done h1 h2 h3 h4 h5
  cases h with
  | noWheel h => exact .noWheel h
  | badVersion h1 h2 => exact .badVersion h1 h2
  | fails h1 h2 h3 => exact .fails h1 h2 (hs h3)
  | panics h1 h2 h3 => exact .panics h1 h2 (hs h3)
  | done h1 h2 h3 => exact .done h1 h2 (hs h3)

theorem other_down : ∀ f ∈ otherZip, Bdist.Spec.Down f.hdr.name := by
  intro f hf
  rw [down_iff]
  have : ∀ f ∈ otherZip, "..".toList ∉ cleanElems false (split '/' f.hdr.name) := by decide +kernel
  exact this f hf

/-- it has no entry points -/
def otherEntry : Bool :=
  match sanitizePlatform toyPlat with
  | .error _ => false
  | .ok p => match vfsOnce (fun l => l.headD []) otherWorld.toEnv p none 0 otherZip with
    | .ok (m, dir) => (m.get? (pathJoin [dir, "entry_points.txt".toList])).isNone
    | _ => false

theorem other_fits : Bdist.Spec.WheelFits otherWorld.toEnv toyHookEnv.decode toyPlat otherZip := by
  intro p q t m dir cfg hp hq hv ⟨r, c, h1, h2, h3⟩
  exfalso
  have he : otherEntry = true := by decide +kernel
  unfold otherEntry at he
  rw [hp] at he
  simp only at he
  have hrun := vfsOnce_run chooses_head otherWorld.toEnv p none 0 otherZip
  split at he
  · rename_i m0 dir0 h0
    rw [h0] at hrun
    have hdet := vfsRun_det (sanitize_rel (clean_proper toy_clean) hp) other_compiler.orderly
      (fun dir get hw => before_inside toy_clean hp other_down hw) (fun dir get hw => other_apart p dir get hp hw)
      (other_time (t' := 0) hv) hrun
    rcases hdet with ⟨e, _⟩ | ⟨a, a', d, e, e', hsame⟩
    · cases e
    · cases e; cases e'
      rw [hsame] at h1
      rw [h1] at he
      cases he
  · cases he

theorem other_ordinary : Bdist.Spec.Ordinary otherWorld toyHookEnv toyPlat otherZip where
  scheme := toy_clean
  compiler := other_compiler
  down := other_down
  apart := other_apart
  fits := other_fits

def exRun (w : World) (zip : List ZFile) : Outcome (List (Hdr × Bytes)) :=
  installOnce (fun l => l.headD []) w toyPlat none none (commandHook toyHookEnv true id id toyPlat) zip

/-- only directories of `as` are above entries of `bs` -/
def exAbove (as bs : List (Hdr × Bytes)) : Bool :=
  as.all (fun a => bs.all (fun b => decide (a.1.typeflag = typeDir) || !(a.1.name ++ ['/']).isPrefixOf b.1.name))

theorem exAbove_spec {as bs : List (Hdr × Bytes)} (h : exAbove as bs = true) :
    ∀ a ∈ as, ∀ b ∈ bs, Fsutil.Spec.Below b.1.name a.1.name → a.1.typeflag = typeDir := by
  intro a ha b hb ⟨t, hab⟩
  simp only [exAbove, List.all_eq_true, Bool.or_eq_true, decide_eq_true_eq, Bool.not_eq_true'] at h
  rcases h a ha b hb with h | h
  · exact h
  · rw [hab] at h
    have : (a.1.name ++ ['/']).isPrefixOf (a.1.name ++ '/' :: t) = true := by
      rw [List.isPrefixOf_iff_prefix]; exact ⟨t, by simp⟩
    rw [h] at this
    cases this

theorem exLayer {w : World} {zip : List ZFile} {layer : List (Hdr × Bytes)} (ho : Bdist.Spec.Ordinary w toyHookEnv toyPlat zip)
    (h : exRun w zip = .ok layer) (h1 : decide (∀ e ∈ layer, ∀ c ∈ split '/' e.1.name, ¬ isMarker c) = true)
    (h2 : decide (∀ e ∈ layer, e.1.name ≠ ".".toList) = true) (h3 : exAbove layer layer = true) :
    Spec.WheelLayer w toyHookEnv toyPlat zip layer := by
  have hr := installOnce_run chooses_head w toyPlat none none (commandHook toyHookEnv true id id toyPlat) zip
  unfold exRun at h
  rw [h] at hr
  exact ⟨ho, ⟨true, id, id, fun _ => List.Perm.refl _, fun _ => List.Perm.refl _, hr⟩, of_decide_eq_true h1, of_decide_eq_true h2, exAbove_spec h3⟩

/-- two wheels that have packages of their own in the same directory, installed at different times, meet the conditions of
`C140_wheels`, on top of an image in which "l" is a symlink; they share directories -/
example : ∃ a b, Spec.WheelLayer cmdWorld toyHookEnv toyPlat cmdZip a ∧ Spec.WheelLayer otherWorld toyHookEnv toyPlat otherZip b ∧
    ([(⟨cmdWorld, toyHookEnv, toyPlat, cmdZip, a⟩ : Spec.Wheel), ⟨otherWorld, toyHookEnv, toyPlat, otherZip, b⟩].map (·.layer)).Pairwise Spec.Apart ∧
    (∃ e ∈ a, ∃ e' ∈ b, e.1.name = e'.1.name) ∧ SortSlice cmdWorld.sortSlice ∧ SortSlice otherWorld.sortSlice ∧ SortSlice toyHookEnv.sortRows ∧
    toyHookEnv.digest = cmdWorld.digest ∧ toyHookEnv.digest = otherWorld.digest ∧ LoadsTo emptyView (exLinked.flatMap inOrder) exLinkedView := by
  have hchk : (match exRun cmdWorld cmdZip, exRun otherWorld otherZip with
    | .ok a, .ok b =>
      (decide (∀ e ∈ a, ∀ c ∈ split '/' e.1.name, ¬ isMarker c) && decide (∀ e ∈ a, e.1.name ≠ ".".toList) && exAbove a a) &&
      (decide (∀ e ∈ b, ∀ c ∈ split '/' e.1.name, ¬ isMarker c) && decide (∀ e ∈ b, e.1.name ≠ ".".toList) && exAbove b b) &&
      (exAbove a b && exAbove b a &&
      decide (∀ x ∈ a, ∀ y ∈ b, x.1.name = y.1.name → x.1.typeflag = typeDir ∧ y.1.typeflag = typeDir) && decide (∃ e ∈ a, ∃ e' ∈ b, e.1.name = e'.1.name))
    | _, _ => false) = true := by decide +kernel
  split at hchk
  · rename_i a b ha hb
    simp only [Bool.and_eq_true] at hchk
    obtain ⟨⟨⟨⟨a1, a2⟩, a3⟩, ⟨b1, b2⟩, b3⟩, ⟨⟨c1, c2⟩, c3⟩, c4⟩ := hchk
    refine ⟨a, b, exLayer cmd_ordinary ha a1 a2 a3, exLayer other_ordinary hb b1 b2 b3, ?_, of_decide_eq_true c4, sortSlice_exists, sortSlice_exists,
      sortSlice_exists, rfl, rfl, exLinked_loads⟩
    simp only [List.map_cons, List.map_nil, List.pairwise_cons, List.mem_singleton, forall_eq, List.not_mem_nil, false_implies, implies_true,
      List.Pairwise.nil, and_true]
    exact ⟨of_decide_eq_true c3, exAbove_spec c1, fun x hx y hy => exAbove_spec c2 y hy x hx⟩
  · cases hchk

end Onto
