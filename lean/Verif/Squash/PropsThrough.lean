import Verif.Squash.Dangling
/-! C99: entries whose paths lead through symlinks. -/
namespace Squash
open Go Spec

/-- Where the elements `cs` lead to from the directory `d`, as in `Leads`, but here what is missing on the way (or is something other
than a directory) counts as a directory: adding an entry makes it one. -/
inductive Spec.Heads (V : View) : List Str → List Str → List Str → Prop where
  | here {d : List Str} : Heads V d [] d
  | up {d cs p : List Str} : Heads V d.dropLast cs p → Heads V d ("..".toList :: cs) p
  | step {d : List Str} {c : Str} {cs p : List Str} : c ≠ "..".toList → (∀ nd, V (d ++ [c]) = some nd → ∀ t, ¬ LinkTo nd t) → Heads V (d ++ [c]) cs p →
      Heads V d (c :: cs) p
  | link {d : List Str} {c : Str} {cs p : List Str} {nd : Node} {t : Str} : c ≠ "..".toList → V (d ++ [c]) = some nd → LinkTo nd t → t ≠ [] →
      Heads V (if "/".toList <+: t then [] else d) (comps t ++ cs) p → Heads V d (c :: cs) p

/-- Where an entry with path `P` takes effect: below the place its directory part leads to, symlinks (also those to nothing) on the way
being followed.  The last element is never followed. -/
def Spec.Goes (V : View) (P p : List Str) : Prop :=
  P = [] ∧ p = [] ∨ ∃ Q c d, P = Q ++ [c] ∧ Heads V [] Q d ∧ p = d ++ [c]

/-- the entries one after the other, each where its path leads to at that time -/
inductive Spec.LoadsTo : View → List Entry → View → Prop where
  | nil {V : View} : LoadsTo V [] V
  | cons {V W : View} {e : Entry} {es : List Entry} {p : List Str} : Goes V (pathOf e) p → LoadsTo (applyAt V p (nodeOf e)) es W →
      LoadsTo V (e :: es) W

/-- no whiteout marker is used as a directory; symlinks are not at the root and have targets of the form C98 requires, without whiteout
markers -/
structure Spec.LinksFine (e : Entry) : Prop where
  visible : Visible (pathOf e).dropLast
  place : e.header.typeflag = '2' → pathOf e ≠ []
  target : e.header.typeflag = '2' → StraightTarget e.header.linkname ∧ Visible (comps e.header.linkname)

/-! ### views and states -/

theorem vis_snoc {d : List Str} {c : Str} (h : Visible d) (hc : ¬ isMarker c) : Visible (d ++ [c]) := by
  intro x hx
  rcases List.mem_append.mp hx with hx | hx
  · exact h x hx
  · rw [show x = c by simpa using hx]; exact hc

theorem visible_dropLast {d : List Str} (h : Visible d) : Visible d.dropLast := fun x hx => h x (List.dropLast_subset _ hx)

theorem heads_congr {V W : View} (hv : ∀ q, Visible q → W q = V q) (hl : ∀ q nd t, Visible q → V q = some nd → LinkTo nd t → Visible (comps t))
    {d : Path} {cs : List Str} {p : Path} (h : Heads V d cs p) : Visible d → Visible cs → Heads W d cs p ∧ Visible p := by
  induction h with
  | here => intro h _; exact ⟨.here, h⟩
  | up _ ih =>
    intro h1 h2
    obtain ⟨g1, g2⟩ := ih (visible_dropLast h1) (fun x hx => h2 x (by simp [hx]))
    exact ⟨.up g1, g2⟩
  | step hc hn _ ih =>
    intro h1 h2
    have hvis := vis_snoc h1 (h2 _ (List.mem_cons_self ..))
    obtain ⟨g1, g2⟩ := ih hvis (fun x hx => h2 x (by simp [hx]))
    exact ⟨.step hc (by rw [hv _ hvis]; exact hn) g1, g2⟩
  | link hc hx ht hne _ ih =>
    intro h1 h2
    have hvis := vis_snoc h1 (h2 _ (List.mem_cons_self ..))
    obtain ⟨g1, g2⟩ := ih (by split; exact (fun x hx => absurd hx (by simp)); exact h1) (by
      intro x hx'
      rcases List.mem_append.mp hx' with h | h
      · exact hl _ _ _ hvis hx ht x h
      · exact h2 x (by simp [h]))
    exact ⟨.link hc (by rw [hv _ hvis]; exact hx) ht hne g1, g2⟩

/-- below a place where nothing is, a path is taken as it is -/
theorem heads_missing {b0 : Bool} {S : FS} (hi : Inv b0 S) {d : Path} {cs : List Str} {p : Path} (h : Heads S.get? d cs p) :
    ¬ S.has d → (∀ c ∈ cs, Plain c) → p = d ++ cs := by
  induction h with
  | here => intro _ _; simp
  | up _ _ => intro _ hp; exact absurd rfl (hp "..".toList (by simp)).2.2.1
  | @step d c cs p _ _ _ ih =>
    intro h1 hp
    rw [ih (missing_below hi h1 [c]) (fun x hx => hp x (by simp [hx])), List.append_assoc]; rfl
  | @link d c cs p nd t _ hv _ _ _ _ => intro h1 _; exact absurd (has_of hv) (missing_below hi h1 [c])

theorem R_of_heads {b0 : Bool} {S : FS} (hi : Inv b0 S) (hs : Straight S.get?) {d : Path} {cs : List Str} {p : Path} (h : Heads S.get? d cs p) :
    ∀ (j : Nat) (ns : List Str), Ups j ns cs → S.has d → S.link d = none →
    (∃ k, R S k (dropN j d) ns p) ∨ ∃ k d' ms, N S k (dropN j d) ns d' ms ∧ p = d' ++ ms := by
  have hnorm : ∀ {j : Nat} {ns : List Str} {c : Str} {cs : List Str}, c ≠ "..".toList → Ups j ns (c :: cs) → j = 0 ∧ ns = c :: cs := by
    intro j ns c cs hc hu
    cases j with
    | zero => exact ⟨rfl, by simpa using hu.1.symm⟩
    | succ j => exact absurd (List.cons.inj hu.1).1 hc
  induction h with
  | @here d =>
    intro j ns hu _ hl
    obtain ⟨h1, rfl⟩ := List.append_eq_nil_iff.mp hu.1.symm
    have : j = 0 := by simpa using h1
    subst this
    exact .inl ⟨0, .done hl⟩
  | @up d cs p _ ih =>
    intro j ns hu hd hl
    cases j with
    | zero =>
      exfalso
      have := hu.2 "..".toList (by rw [show ns = _ from by simpa using hu.1.symm]; simp)
      exact this.2.2.1 rfl
    | succ j =>
      rcases snoc_cases d with rfl | ⟨q, c, rfl⟩
      · exact ih j ns ⟨(List.cons.inj hu.1).2, hu.2⟩ hd hl
      · obtain ⟨g1, g2, g3⟩ := has_dir hi hd
        rw [List.dropLast_concat] at ih
        have := ih j ns ⟨(List.cons.inj hu.1).2, hu.2⟩ g1 g3
        show (∃ k, R S k (dropN j (q ++ [c]).dropLast) ns p) ∨ ∃ k d' ms, N S k (dropN j (q ++ [c]).dropLast) ns d' ms ∧ p = d' ++ ms
        rw [List.dropLast_concat]
        exact this
  | @step d c cs p hc hnl hh ih =>
    intro j ns hu hd hl
    obtain ⟨rfl, rfl⟩ := hnorm hc hu
    have hp : ∀ x ∈ cs, Plain x := fun x hx => hu.2 x (by simp [hx])
    by_cases hv : S.has (d ++ [c])
    · obtain ⟨nd, hv'⟩ := get_of_has hv
      have hl' : S.link (d ++ [c]) = none := by
        rw [link_of_get hv']
        cases e : nd.link with
        | none => rfl
        | some t => exact absurd (linkTo_iff.mpr e) (hnl nd hv' t)
      rcases ih 0 cs ⟨by simp, hp⟩ hv hl' with ⟨k, hr⟩ | ⟨k, d', ms, hr, he⟩
      · exact .inl ⟨_, .down hl hv hr⟩
      · exact .inr ⟨_, d', ms, .down hl hv hr, he⟩
    · exact .inr ⟨0, d, c :: cs, .miss hl hv, by rw [heads_missing hi hh hv hp, List.append_assoc]; rfl⟩
  | @link d c cs p nd t hc hv hlt hne _ ih =>
    intro j ns hu hd hl
    obtain ⟨rfl, rfl⟩ := hnorm hc hu
    have hl' : S.link (d ++ [c]) = some t := by rw [link_of_get hv]; exact linkTo_iff.mp hlt
    obtain ⟨_, b, ns', hk⟩ := straight_links hs _ _ hl'
    have hk' := hk
    obtain ⟨l, j', g1, g2, g3, _⟩ := hk'
    rw [hl'] at g1
    injection g1 with g1
    subst g1
    obtain ⟨b1, b2, b3⟩ := has_dir hi (has_of hv)
    have hu' : Ups j' (ns' ++ cs) (comps t ++ cs) := by
      refine ⟨by rw [g2.1, List.append_assoc], ?_⟩
      intro x hx
      rcases List.mem_append.mp hx with hx | hx
      · exact g2.2 x hx
      · exact hu.2 x (by simp [hx])
    have hroot : S.link [] = none := (dir_above hi (has_of hv) (by simp) List.nil_prefix).2.2
    have close : ((∃ k, R S k b (ns' ++ cs) p) ∨ ∃ k d' ms, N S k b (ns' ++ cs) d' ms ∧ p = d' ++ ms) →
        (∃ k, R S k (dropN 0 d) (c :: cs) p) ∨ ∃ k d' ms, N S k (dropN 0 d) (c :: cs) d' ms ∧ p = d' ++ ms := by
      rintro (⟨k, h1⟩ | ⟨k, d', ms, h1, h2⟩)
      · exact .inl ⟨_, .down hl (has_of hv) (.link hk h1)⟩
      · exact .inr ⟨_, d', ms, .down hl (has_of hv) (.link hk h1), h2⟩
    by_cases hr : isRooted t = true
    · rw [if_pos (rooted_iff.mpr hr)] at ih
      rw [if_pos hr] at g3
      have h1 := ih j' (ns' ++ cs) hu' hi.root hroot
      rw [dropN_nil, ← g3] at h1
      exact close h1
    · rw [if_neg (fun h => hr (rooted_iff.mp h))] at ih
      rw [if_neg hr, List.dropLast_concat] at g3
      have h1 := ih j' (ns' ++ cs) hu' b1 b3
      rw [← g3] at h1
      exact close h1

/-- the root is a directory, markers are not directories -/
structure Spec.Usual (e : Entry) : Prop where
  root : pathOf e = [] → e.header.typeflag = '5'
  mark : isMarkerEntry e → e.header.typeflag ≠ '5'

/-- what loading keeps; `u` says whether the entries are usual -/
structure Kept (u : Prop) (S : FS) (V : View) : Prop where
  shape : u → Shape S
  inv : Inv false S
  view : ∀ q, Visible q → S.get? q = V q
  link : ∀ p l, S.link p = some l → p ≠ [] ∧ StraightTarget l ∧ Visible (comps l)

theorem Kept.straight {u : Prop} {S : FS} {V : View} (h : Kept u S V) : Straight S.get? := by
  intro f nd t hf ht
  obtain ⟨h1, h2, _⟩ := h.link f t (by rw [link_of_get hf]; exact linkTo_iff.mp ht)
  exact ⟨h1, h2⟩

theorem Kept.rootLink {u : Prop} {S : FS} {V : View} (h : Kept u S V) : S.link [] = none := by
  cases e : S.link [] with
  | none => rfl
  | some t => exact absurd rfl (h.link _ _ e).1

theorem dropBody_nonDir (oc : Bool) (e : Entry) : (nodeOf (dropBody oc e)).nonDir = (nodeOf e).nonDir := by
  unfold dropBody; cases oc <;> rfl

theorem addEntry_kept {oc : Bool} {u : Prop} {S : FS} {V : View} {e : Entry} {p : List Str} (h : Kept u S V)
    (ho : outside (clean e.header.name) = false) (hf : LinksFine e) (hu : u → Usual e) (hg : Goes V (pathOf e) p) :
    ∃ n0 S', (∀ n, n0 ≤ n → addEntry n S (cleaned oc e) = some (.ok S')) ∧ Kept u S' (applyAt V p (nodeOf (dropBody oc e))) := by
  obtain ⟨cs, hcs, hroot, ec, hsp⟩ := inside_elems ho
  have ecs : pathOf e = cs := by unfold pathOf; rw [ec, comps_render hcs]
  rcases hg with ⟨hP, rfl⟩ | ⟨Q, c, p', hP, hle, rfl⟩
  · -- the root
    have hpo : Spec.comps (cleaned oc e).header.name = pathOf e := rfl
    obtain ⟨_, _, S', h1, h2, h3, h4⟩ := addEntry_exact (n := 0) (e := cleaned oc e) h.inv ⟨⟨e.header.name, rfl, ho⟩, by simp⟩ (by
      intro t a b
      rw [hpo, hP] at a b
      exact absurd (List.prefix_nil.mp a) b)
    rw [hpo, hP] at h3 h4
    have e2 : nodeOf (dropBody oc e) = ⟨some (cleaned oc e).header, (cleaned oc e).body⟩ := by
      unfold dropBody cleaned; cases oc <;> rfl
    refine ⟨3, S', fun n hn => (addEntry_le hn _ _).some h1, ?_, h2, ?_, ?_⟩
    · intro hu'
      refine shape_step (h.shape hu') h2 (fun q => h4 q (.inl (by simp))) (by simp) (by intro c hc; simp at hc) rfl ?_ (by simp)
      intro _
      rw [← e2, dropBody_nonDir]
      exact decide_eq_false (fun h => h ((hu hu').root hP))
    · intro q hq
      rw [h4 q (.inr (visible_not_opq hq)), stepped_visible h.view q hq, e2]
    · intro q l hl
      rcases h3 q l hl with a | ⟨rfl, b⟩
      · exact h.link q l a
      · exfalso
        simp only [Node.link] at b
        split at b
        · rename_i ht; exact hf.place ht hP
        · cases b
  · have hpQ : ∀ x ∈ Q, Plain x := fun x hx => hcs x (by rw [← ecs, hP]; simp [hx])
    have hpc : Plain c := hcs c (by rw [← ecs, hP]; simp)
    have hvQ : Visible Q := by have := hf.visible; rwa [hP, List.dropLast_concat] at this
    obtain ⟨hle', hvp⟩ := heads_congr h.view (by
      intro q nd t hq hv ht
      refine (h.link q t ?_).2.2
      rw [link_of_get (show S.get? q = some nd by rw [h.view q hq]; exact hv)]
      exact linkTo_iff.mp ht) hle (fun x hx => absurd hx (by simp)) hvQ
    have hsl := straight_links h.straight
    obtain ⟨d, bs, hbs, hpd, hlast, hd, hdp, hpb, hw, hlk⟩ : ∃ d bs, bs ≠ [] ∧ d ++ bs = p' ++ [c] ∧ bs.getLast? = (pathOf e).getLast? ∧ S.has d ∧
        (∀ c ∈ d, Plain c) ∧ (∀ c ∈ bs, Plain c) ∧
        (∃ n0, ∀ n, n0 ≤ n → walk (Gc true n) S [] (pathOf e) false = walk (Gc true n) S d bs false) ∧
        ∀ t, t <+: bs → t ≠ bs → S.link (d ++ t) = none := by
      rcases R_of_heads h.inv h.straight hle' 0 Q ⟨by simp, hpQ⟩ h.inv.root h.rootLink with ⟨k, hr⟩ | ⟨k, d, ms, hr, rfl⟩
      · obtain ⟨hd, hdp⟩ := hr.hasP h.inv hsl h.inv.root hpQ (by simp [dropN])
        obtain ⟨n0, hw⟩ := walk_through (cr := true) h.inv hsl Q k [] p' h.inv.root hpQ hr
        refine ⟨p', [c], by simp, rfl, by rw [hP]; simp, hd, hdp, by simpa using hpc, ⟨n0, fun n hn => ?_⟩, ?_⟩
        · rw [hP]; exact hw n hn [c] false (by simp) (by simpa using hpc)
        · intro t ht ht'
          cases t with
          | nil => simpa using hr.end
          | cons y t =>
            exfalso
            obtain ⟨rfl, h2⟩ := List.cons_prefix_cons.mp ht
            rw [List.prefix_nil.mp h2] at ht'
            exact ht' rfl
      · obtain ⟨hd, hdp, hmp, hdl, c0, cs0, ems, hno⟩ := hr.facts h.inv hsl h.inv.root hpQ (by simp [dropN])
        obtain ⟨n0, hw⟩ := walk_through_lost h.inv hsl Q k [] d ms h.inv.root (by simp) hpQ hr
        refine ⟨d, ms ++ [c], by simp, by simp, by rw [hP]; simp, hd, hdp, ?_, ⟨n0, fun n hn => ?_⟩, ?_⟩
        · intro x hx
          rcases List.mem_append.mp hx with hx | hx
          · exact hmp x hx
          · rw [show x = c by simpa using hx]; exact hpc
        · rw [hP]; exact hw n hn [c] false (by simp) (by simpa using hpc)
        · intro t ht _
          rw [ems, List.cons_append] at ht
          exact no_links h.inv hdl hno t ht
    obtain ⟨n0, S', h1, h2, h3, h4, h5, h6⟩ := addEntry_walk (oc := oc) h.inv ho (by rw [hP]; simp) hbs hlast hd hdp hpb hw hlk
    rw [hpd] at h3 h4 h5 h6
    have hin : Visible (p' ++ [c]).dropLast := by rw [List.dropLast_concat]; exact hvp
    refine ⟨n0, S', h1, ?_, h2, h4 V h.view, ?_⟩
    · intro hu'
      refine shape_step (h.shape hu') h2 (h6 (visible_not_opq hin)) h5 hin (by unfold nodeOf; rfl) (by simp) ?_
      intro r c' hrc hc
      rw [dropBody_nonDir]
      have hm : isMarkerEntry e := by
        refine ⟨c', ?_, hc⟩
        rw [hP, List.getLast?_append, List.getLast?_singleton, Option.some_or]
        have e1 : (p' ++ [c]).getLast? = some c' := by rw [hrc]; simp
        rw [List.getLast?_append, List.getLast?_singleton, Option.some_or] at e1
        exact e1
      exact decide_eq_true ((hu hu').mark hm)
    intro q l hl
    rcases h3 q l hl with a | ⟨rfl, b⟩
    · exact h.link q l a
    · simp only [Node.link, nodeOf] at b
      split at b
      · rename_i ht
        injection b with b
        subst b
        exact ⟨by simp, hf.target ht⟩
      · cases b

theorem addEntries_kept {oc : Bool} {u : Prop} : ∀ (es : List Entry) (S : FS) (V W : View), Kept u S V → (∀ e ∈ es, outside (clean e.header.name) = false) →
    (∀ e ∈ es, LinksFine e) → (u → ∀ e ∈ es, Usual e) → LoadsTo V (es.map (dropBody oc)) W →
    ∃ n0 S', (∀ n, n0 ≤ n → addEntries n S (es.map (cleaned oc)) = some (.ok S')) ∧ Kept u S' W := by
  intro es
  induction es with
  | nil =>
    intro S V W h _ _ _ hw
    cases hw
    exact ⟨0, S, fun _ _ => rfl, h⟩
  | cons e es ih =>
    intro S V W h ho hf hu hw
    rw [List.map_cons] at hw
    cases hw with
    | @cons _ _ _ _ p hg hw =>
      have e1 : pathOf (dropBody oc e) = pathOf e := by unfold dropBody; cases oc <;> rfl
      rw [e1] at hg
      obtain ⟨n1, S1, h1, k1⟩ := addEntry_kept (oc := oc) h (ho e (by simp)) (hf e (by simp)) (fun h' => hu h' e (by simp)) hg
      obtain ⟨n2, S2, h2, k2⟩ := ih S1 _ W k1 (fun x hx => ho x (by simp [hx])) (fun x hx => hf x (by simp [hx])) (fun h' x hx => hu h' x (by simp [hx])) hw
      refine ⟨n1 + n2, S2, fun n hn => ?_, k2⟩
      rw [List.map_cons, addEntries, h1 n (by omega), bind_some_ok]
      exact h2 n (by omega)

theorem loadsTo_split {V W : View} : ∀ {xs ys : List Entry}, LoadsTo V (xs ++ ys) W → ∃ U, LoadsTo V xs U ∧ LoadsTo U ys W := by
  intro xs
  induction xs generalizing V with
  | nil => intro ys h; exact ⟨V, .nil, h⟩
  | cons x xs ih =>
    intro ys h
    cases h with
    | cons hg h =>
      obtain ⟨U, h1, h2⟩ := ih h
      exact ⟨U, .cons hg h1, h2⟩

theorem loadFrom_kept {oc : Bool} {u : Prop} : ∀ (ls : List (List Entry)) (S : FS) (V W : View), Kept u S V →
    (∀ l ∈ ls, ∀ e ∈ l, outside (clean e.header.name) = false) → (∀ l ∈ ls, ∀ e ∈ l, LinksFine e) →
    (u → ∀ l ∈ ls, ∀ e ∈ l, Usual e) →
    LoadsTo V ((ls.flatMap inOrder).map (dropBody oc)) W →
    ∃ n0 S', (∀ n, n0 ≤ n → loadFrom n oc S ls = some (.ok S')) ∧ Kept u S' W := by
  intro ls
  induction ls with
  | nil =>
    intro S V W h _ _ _ hw
    cases hw
    exact ⟨0, S, fun _ _ => rfl, h⟩
  | cons l ls ih =>
    intro S V W h ho hf hu hw
    rw [List.flatMap_cons, List.map_append] at hw
    obtain ⟨U, w1, w2⟩ := loadsTo_split hw
    unfold inOrder at w1
    rw [List.map_append] at w1
    obtain ⟨T, w0, w1⟩ := loadsTo_split w1
    obtain ⟨n1, S1, h1, k1⟩ := addEntries_kept (oc := oc) _ S V T h (fun e he => ho l (by simp) e (List.mem_filter.mp he).1)
      (fun e he => hf l (by simp) e (List.mem_filter.mp he).1)
      (fun h' e he => hu h' l (by simp) e (List.mem_filter.mp he).1) w0
    obtain ⟨n2, S2, h2, k2⟩ := addEntries_kept (oc := oc) _ S1 T U k1 (fun e he => ho l (by simp) e (List.mem_filter.mp he).1)
      (fun e he => hf l (by simp) e (List.mem_filter.mp he).1)
      (fun h' e he => hu h' l (by simp) e (List.mem_filter.mp he).1) w1
    obtain ⟨n3, S3, h3, k3⟩ := ih S2 U W k2 (fun x hx => ho x (by simp [hx])) (fun x hx => hf x (by simp [hx]))
      (fun h' x hx => hu h' x (by simp [hx])) w2
    refine ⟨n1 + n2 + n3, S3, fun n hn => ?_, k3⟩
    rw [loadFrom, parseLayer_eq l (ho l (by simp))]
    simp only
    rw [h1 n (by omega), bind_some_ok, h2 n (by omega), bind_some_ok]
    exact h3 n (by omega)

/-- C99: for all stacks of layers whose symlinks have straight targets (see C98; else it fails, `C99_violated`), loading succeeds
and at every path that has no whiteout marker in it there is what results when each entry, in the order of the layers and
markers first, takes effect at the place where the symlinks on its path lead at that time: an entry for "lib/f", with "lib" a symlink
to "usr/lib", replaces "usr/lib/f" (and nothing else), and "lib/.wh.f" removes it. -/
theorem C99_through_partial (layers : List (List Entry)) (hin : ∀ l ∈ layers, ∀ e ∈ l, ¬ Outside e.header.name)
    (hf : ∀ l ∈ layers, ∀ e ∈ l, LinksFine e) (oc : Bool) (W : View)
    (hw : LoadsTo emptyView ((layers.flatMap inOrder).map (fun e => if oc then strip e else e)) W) :
    ∃ n0 S, (∀ n, n0 ≤ n → loadLayers n layers oc = some (.ok S)) ∧ ∀ q, Visible q → S.get? q = W q := by
  obtain ⟨n0, S, h1, h2⟩ := loadFrom_kept (oc := oc) layers emptyFS emptyView W
    (u := False) ⟨False.elim, inv_empty false, fun q _ => get?_emptyFS q, by
      intro p l h
      exact (sim_empty (fun _ => False)).link p l h |>.elim⟩
    (by
      intro l h1 e h2
      have := hin l h1 e h2
      rw [← outside_iff] at this
      simpa using this) hf False.elim hw
  exact ⟨n0, S, h1, h2.view⟩

theorem loadsTo_append {V U W : View} {xs ys : List Entry} (h : LoadsTo V xs U) (h' : LoadsTo U ys W) : LoadsTo V (xs ++ ys) W := by
  induction h with
  | nil => exact h'
  | cons hg _ ih => exact .cons hg (ih h')

/-- **C99** (one more entry).  A layer with a single entry on top of such a stack.  An ordinary entry whose path leads to `p` is found at
`p`, and nothing changes except above and below `p`; a whiteout for `x` whose path leads to the directory `d` removes `d/x` with everything
below it, and nothing else changes outside of the path to `d`. -/
theorem C99_entry_partial (layers : List (List Entry)) (e : Entry) (hin : ∀ l ∈ layers ++ [[e]], ∀ e ∈ l, ¬ Outside e.header.name)
    (hf : ∀ l ∈ layers ++ [[e]], ∀ e ∈ l, LinksFine e) (V : View) (hw : LoadsTo emptyView (layers.flatMap inOrder) V)
    (p : List Str) (hg : Goes V (pathOf e) p) :
    ∃ n0 S T, (∀ n, n0 ≤ n → loadLayers n layers false = some (.ok S) ∧ loadLayers n (layers ++ [[e]]) false = some (.ok T)) ∧
      (Visible p → T.get? p = some (nodeOf e) ∧ ∀ q, Visible q → ¬ p <+: q → ¬ q <+: p → T.get? q = S.get? q) ∧
      (∀ d x, p = d ++ [".wh.".toList ++ x] → x ≠ ".wh..opq".toList →
        ∀ q, Visible q → (d ++ [x] <+: q → T.get? q = none) ∧ (¬ d ++ [x] <+: q → ¬ q <+: d → T.get? q = S.get? q)) := by
  have e0 : ∀ es : List Entry, es.map (fun e => if false then strip e else e) = es := by
    intro es
    have : (fun e : Entry => if false then strip e else e) = id := by funext e; simp
    rw [this]; simp
  obtain ⟨n1, S, h1, h2⟩ := C99_through_partial layers (fun l hl => hin l (by simp [hl])) (fun l hl => hf l (by simp [hl])) false V (by
    rw [e0]; exact hw)
  have eo : inOrder [e] = [e] := by
    unfold inOrder
    by_cases h : isMarkerEntry e <;> simp [h]
  obtain ⟨n2, T, h3, h4⟩ := C99_through_partial (layers ++ [[e]]) hin hf false (applyAt V p (nodeOf e)) (by
    rw [e0, List.flatMap_append]
    refine loadsTo_append hw ?_
    rw [List.flatMap_cons, eo]
    exact .cons hg .nil)
  refine ⟨n1 + n2, S, T, fun n hn => ⟨h1 n (by omega), h3 n (by omega)⟩, ?_, ?_⟩
  · intro hv
    have hm : ∀ c, p.getLast? = some c → ¬ isMarker c := fun c hc => hv c (List.mem_of_getLast? hc)
    have ho : ∀ c, p.getLast? = some c → c ≠ ".wh..wh..opq".toList := fun c hc e => hm c hc (by rw [e]; decide)
    constructor
    · rw [h4 p hv]
      unfold applyAt
      rw [if_neg (by simp)]
      cases hc : p.getLast? with
      | none => simp
      | some c =>
        simp only
        rw [if_neg (ho c hc), if_neg (hm c hc), if_pos trivial]
    · intro q hq hpq hqp
      rw [h4 q hq, h2 q hq]
      unfold applyAt
      have hne : ¬ q = p := fun e => hqp (by rw [e]; exact List.prefix_refl _)
      rw [if_neg (fun h => hqp h.1)]
      cases hc : p.getLast? with
      | none => simp only; rw [if_neg hne, if_neg (fun h => hpq h.1)]
      | some c =>
        simp only
        rw [if_neg (ho c hc), if_neg (hm c hc), if_neg hne, if_neg (fun h => hpq h.1)]
  · rintro d x rfl hx q hq
    have hmk : isMarker (".wh.".toList ++ x) := List.prefix_append _ _
    have hno : ¬ ".wh.".toList ++ x = ".wh..wh..opq".toList := by
      intro h
      apply hx
      exact List.append_cancel_left (show ".wh.".toList ++ x = ".wh.".toList ++ ".wh..opq".toList from h)
    have hnp : ∀ h : q <+: d ++ [".wh.".toList ++ x] ∧ q ≠ d ++ [".wh.".toList ++ x], q <+: d := by
      rintro ⟨a, b⟩
      rcases snoc_cases q with rfl | ⟨q', y, rfl⟩
      · exact List.nil_prefix
      · exact (prefix_snoc_snoc.mp a).resolve_left b
    have hdrop : (".wh.".toList ++ x).drop 4 = x := rfl
    constructor
    · intro h
      rw [h4 q hq]
      unfold applyAt
      rw [if_neg (fun h' => by
        have := (hnp h').length_le
        have := h.length_le
        simp at this; omega)]
      simp only [List.getLast?_append, List.getLast?_singleton, Option.some_or, List.dropLast_concat]
      rw [if_neg hno, if_pos hmk, hdrop, if_pos h]
    · intro h h'
      rw [h4 q hq, h2 q hq]
      unfold applyAt
      rw [if_neg (fun h'' => h' (hnp h''))]
      simp only [List.getLast?_append, List.getLast?_singleton, Option.some_or, List.dropLast_concat]
      rw [if_neg hno, if_pos hmk, hdrop, if_neg h]

/-! ### a case, and a case in which the code differs -/

theorem heads_of_leads {V : View} {d cs p : List Str} (h : Leads V d cs p) : Heads V d cs p := by
  induction h with
  | here => exact .here
  | up _ ih => exact .up ih
  | step hc hv hn _ _ ih => exact .step hc (fun nd' hv' t => by rw [hv] at hv'; injection hv' with e; exact e ▸ hn t) ih
  | link hc hv ht hne _ ih => exact .link hc hv ht hne ih

theorem heads_plain {V : View} : ∀ (Q d : List Str), "..".toList ∉ Q → (∀ t, t <+: Q → t ≠ [] → ∀ nd, V (d ++ t) = some nd → ∀ tgt, ¬ LinkTo nd tgt) →
    Heads V d Q (d ++ Q) := by
  intro Q
  induction Q with
  | nil => intro d _ _; rw [List.append_nil]; exact .here
  | cons c Q ih =>
    intro d hc h
    refine .step (fun e => hc (by simp [e])) (h [c] (by simp) (by simp)) ?_
    have := ih (d ++ [c]) (fun h => hc (List.mem_cons_of_mem _ h)) (fun t ht _ nd hv => by
      rw [List.append_assoc] at hv
      exact h (c :: t) (List.cons_prefix_cons.mpr ⟨rfl, ht⟩) (by simp) nd hv)
    simpa using this

/-- without symlinks on its way a path is taken as it is -/
theorem goes_straight {V : View} {P : List Str} (hne : P ≠ []) (hd : "..".toList ∉ P)
    (h : ∀ t, t <+: P → t ≠ P → t ≠ [] → ∀ nd, V t = some nd → ∀ tgt, ¬ LinkTo nd tgt) : Goes V P P := by
  obtain ⟨Q, c, rfl⟩ := (snoc_cases P).resolve_left hne
  refine .inr ⟨Q, c, Q, rfl, ?_, rfl⟩
  have := heads_plain (V := V) Q [] (fun h => hd (List.mem_append_left _ h)) (fun t ht h0 nd hv => by
    refine h t (ht.trans (List.prefix_append _ _)) ?_ h0 nd (by simpa using hv)
    rintro rfl
    have := ht.length_le
    rw [List.length_append] at this
    simp only [List.length_cons, List.length_nil] at this
    omega)
  simpa using this

theorem goes_plain {V : View} {P : List Str} (hne : P ≠ []) (hd : "..".toList ∉ P) (h : ∀ i < P.length, (V (P.take i)).all (fun nd => nd.link.isNone) = true) :
    Goes V P P := by
  refine goes_straight hne hd ?_
  intro t ht ht' _ nd hv tgt hl
  obtain ⟨u, rfl⟩ := ht
  have := h t.length (by
    cases u with
    | nil => simp at ht'
    | cons => simp)
  rw [List.take_left, hv] at this
  simp [linkTo_iff.mp hl] at this

theorem goes_last {V : View} {as : List Str} {x : Str} {d : List Str} (h : Leads V [] as d) : Goes V (as ++ [x]) (d ++ [x]) :=
  .inr ⟨as, x, d, rfl, heads_of_leads h, rfl⟩

/-- a base with "lib" a symlink to "usr/lib" -/
def exMerged : List (List Entry) := [[exDir "usr/lib/", exFile "usr/lib/f" [1], exFile "usr/lib/g" [2], exLink "lib" "usr/lib"]]

def exMergedView : View := ((exMerged.flatMap inOrder)).foldl apply emptyView

theorem exMerged_loads : LoadsTo emptyView (exMerged.flatMap inOrder) exMergedView := by
  have e : exMerged.flatMap inOrder = [exDir "usr/lib/", exFile "usr/lib/f" [1], exFile "usr/lib/g" [2], exLink "lib" "usr/lib"] := by decide +kernel
  unfold exMergedView
  rw [e]
  exact .cons (goes_plain (by decide +kernel) (by decide +kernel) (by decide +kernel)) (.cons (goes_plain (by decide +kernel) (by decide +kernel) (by decide +kernel))
    (.cons (goes_plain (by decide +kernel) (by decide +kernel) (by decide +kernel)) (.cons (goes_plain (by decide +kernel) (by decide +kernel) (by decide +kernel)) .nil)))

theorem exMerged_leads : Leads exMergedView [] ["lib".toList] ["usr".toList, "lib".toList] := by
  have nolink : ∀ {nd : Node}, nd.link = none → ∀ t, ¬ LinkTo nd t := fun h t ht => by rw [linkTo_iff.mp ht] at h; cases h
  refine .link (nd := nodeOf (exLink "lib" "usr/lib")) (by decide) (by decide +kernel) ⟨_, rfl, rfl, rfl⟩ (by decide) ?_
  rw [if_neg (by decide)]
  change Leads exMergedView [] (comps "usr/lib".toList ++ []) _
  rw [show comps "usr/lib".toList ++ [] = ["usr".toList, "lib".toList] by decide +kernel]
  refine .step (nd := ⟨none, []⟩) (by decide) (by decide +kernel) (nolink rfl) (fun _ => isDir_iff.mpr (by decide)) ?_
  exact .step (nd := nodeOf (exDir "usr/lib/")) (by decide) (by decide +kernel) (nolink (by decide +kernel)) (fun h => absurd rfl h) .here

/-- a case for `C99_entry_partial`: "lib/f" goes to "usr/lib/f", the whiteout "lib/.wh.g" to "usr/lib" -/
example : Goes exMergedView (pathOf (exFile "lib/f" [3])) ["usr".toList, "lib".toList, "f".toList] ∧
    Goes exMergedView (pathOf (exFile "lib/.wh.g" [])) (["usr".toList, "lib".toList] ++ [".wh.".toList ++ "g".toList]) := by
  constructor
  · rw [show pathOf (exFile "lib/f" [3]) = ["lib".toList] ++ ["f".toList] by decide +kernel]
    exact goes_last exMerged_leads
  · rw [show pathOf (exFile "lib/.wh.g" []) = ["lib".toList] ++ [".wh.g".toList] by decide +kernel]
    exact goes_last exMerged_leads

example : ∀ l ∈ exMerged ++ [[exFile "lib/f" [3]]], ∀ e ∈ l, LinksFine e := by
  have key : ∀ l ∈ exMerged ++ [[exFile "lib/f" [3]]], ∀ e ∈ l, Visible (pathOf e).dropLast ∧ (e.header.typeflag = '2' → pathOf e ≠ [] ∧
      e.header.linkname = "usr/lib".toList) := by decide +kernel
  intro l hl e he
  obtain ⟨h1, h2⟩ := key l hl e he
  refine ⟨h1, fun h => (h2 h).1, fun h => ?_⟩
  rw [(h2 h).2]
  exact ⟨⟨by decide, 0, ["usr".toList, "lib".toList], by decide +kernel, by decide +kernel, fun _ => by simp⟩, by decide +kernel⟩

example : (loadLayers 9 (exMerged ++ [[exFile "lib/f" [3], exFile "lib/.wh.g" []]]) false).map (fun r => r.toOption.map (fun S =>
      (S.get? ["usr".toList, "lib".toList, "f".toList], S.get? ["usr".toList, "lib".toList, "g".toList], S.get? ["lib".toList]))) =
    some (some (some (nodeOf (exFile "lib/f" [3])), none, some (nodeOf (exLink "lib" "usr/lib")))) := by decide +kernel

/-- a symlink to nothing, "r" to "a/b", and another through it: the entry "s/f" goes to "a/b/c/f", the directories being made -/
def exLost : List (List Entry) := [[exLink "r" "a/b", exLink "s" "r/c"]]

def exLostView : View := ((exLost.flatMap inOrder)).foldl apply emptyView

example : LoadsTo emptyView (exLost.flatMap inOrder) exLostView ∧
    Goes exLostView (pathOf (exFile "s/f" [1])) ["a".toList, "b".toList, "c".toList, "f".toList] ∧
    (loadLayers 12 (exLost ++ [[exFile "s/f" [1]]]) false).map (fun r => r.toOption.map (fun S =>
      (S.get? ["a".toList, "b".toList, "c".toList, "f".toList], S.get? ["a".toList, "b".toList]))) =
    some (some (some (nodeOf (exFile "s/f" [1])), some ⟨none, []⟩)) := by
  have nolink : ∀ {V : View} {p : Path}, (V p).all (fun nd => nd.link.isNone) = true → ∀ nd, V p = some nd → ∀ t, ¬ LinkTo nd t := by
    intro V p h nd hv t ht
    rw [hv] at h
    simp [linkTo_iff.mp ht] at h
  refine ⟨?_, ?_, by decide +kernel⟩
  · have e : exLost.flatMap inOrder = [exLink "r" "a/b", exLink "s" "r/c"] := by decide +kernel
    unfold exLostView
    rw [e]
    exact .cons (goes_plain (by decide +kernel) (by decide +kernel) (by decide +kernel))
      (.cons (goes_plain (by decide +kernel) (by decide +kernel) (by decide +kernel)) .nil)
  · rw [show pathOf (exFile "s/f" [1]) = ["s".toList] ++ ["f".toList] by decide +kernel]
    refine .inr ⟨["s".toList], "f".toList, ["a".toList, "b".toList, "c".toList], rfl, ?_, rfl⟩
    refine .link (nd := nodeOf (exLink "s" "r/c")) (by decide) (by decide +kernel) ⟨_, rfl, rfl, rfl⟩ (by decide) ?_
    rw [if_neg (by decide)]
    change Heads exLostView [] (comps "r/c".toList ++ []) _
    rw [show comps "r/c".toList ++ [] = ["r".toList, "c".toList] by decide +kernel]
    refine .link (nd := nodeOf (exLink "r" "a/b")) (by decide) (by decide +kernel) ⟨_, rfl, rfl, rfl⟩ (by decide) ?_
    rw [if_neg (by decide)]
    change Heads exLostView [] (comps "a/b".toList ++ ["c".toList]) _
    rw [show comps "a/b".toList ++ ["c".toList] = ["a".toList, "b".toList, "c".toList] by decide +kernel]
    exact .step (by decide) (nolink (by decide +kernel)) (.step (by decide) (nolink (by decide +kernel)) (.step (by decide) (nolink (by decide +kernel)) .here))

/-- C99 fails for a symlink to "/": with "r" such a link, the entry "r/f" belongs to "f", but is put into a directory with the empty
name -/
theorem C99_violated (n : Nat) (hn : 9 ≤ n) : ∃ W S, LoadsTo emptyView ([[exLink "r" "/", exFile "r/f" [1]]].flatMap inOrder) W ∧
    loadLayers n [[exLink "r" "/", exFile "r/f" [1]]] false = some (.ok S) ∧ W ["f".toList] = some (nodeOf (exFile "r/f" [1])) ∧
    S.get? ["f".toList] = none ∧ S.get? [[], "f".toList] = some (nodeOf (exFile "r/f" [1])) := by
  refine ⟨applyAt (apply emptyView (exLink "r" "/")) ["f".toList] (nodeOf (exFile "r/f" [1])), loaded [[exLink "r" "/", exFile "r/f" [1]]], ?_,
    load_mono hn (by decide +kernel), by decide +kernel, by decide +kernel, by decide +kernel⟩
  rw [show [[exLink "r" "/", exFile "r/f" [1]]].flatMap inOrder = [exLink "r" "/", exFile "r/f" [1]] by decide +kernel]
  refine .cons (goes_plain (by decide +kernel) (by decide +kernel) (by decide +kernel)) (.cons ?_ .nil)
  rw [show pathOf (exFile "r/f" [1]) = ["r".toList] ++ ["f".toList] by decide +kernel, show pathOf (exLink "r" "/") = ["r".toList] by decide +kernel]
  refine goes_last (d := []) ?_
  refine .link (nd := nodeOf (exLink "r" "/")) (by decide) (by decide +kernel) ⟨_, rfl, rfl, rfl⟩ (by decide) ?_
  rw [if_pos (by decide)]
  change Leads _ [] (comps "/".toList ++ []) _
  rw [show comps "/".toList ++ [] = [] by decide +kernel]
  exact .here

end Squash
