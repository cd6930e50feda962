import Verif.Squash.Ends
/-! C68: exactly when opening a file returns. -/
namespace Squash
open Go Spec

/-- The symlink at `f` names the file at `g`: following all elements of the target but the last, one comes to the directory that `g`
is in.  (Whether `g` is itself a symlink is left open.) -/
def Spec.Names (V : Path → Option Node) (f g : Path) : Prop :=
  ∃ nd t ds c d, V f = some nd ∧ LinkTo nd t ∧ comps t = ds ++ [c] ∧ c ≠ "..".toList ∧
    Leads V (if "/".toList <+: t then [] else f.dropLast) ds d ∧ V (d ++ [c]) ≠ none ∧ g = d ++ [c]

/-- `f` is a symlink that names a symlink, which names a symlink, and so on for ever; as there are finitely many, they go round in a
circle -/
def Spec.Circle (V : Path → Option Node) (f : Path) : Prop := ∃ P : Path → Prop, P f ∧ ∀ x, P x → ∃ y, Names V x y ∧ P y

/-- Path resolution (see `Spec.Leads`) from the directory `d` along the elements `cs` comes to an end without finding a file: an element
does not exist, one that is not the last is neither a directory nor a symlink, or symlinks name each other in a circle. -/
inductive Spec.Fails (V : Path → Option Node) : Path → List Str → Prop where
  | missing {d : Path} {c : Str} {cs : List Str} : c ≠ "..".toList → V (d ++ [c]) = none → Fails V d (c :: cs)
  | notDir {d : Path} {c : Str} {cs : List Str} {nd : Node} : c ≠ "..".toList → V (d ++ [c]) = some nd → (∀ t, ¬ LinkTo nd t) → ¬ IsDir nd →
      cs ≠ [] → Fails V d (c :: cs)
  | circle {d : Path} {c : Str} {cs : List Str} : c ≠ "..".toList → Circle V (d ++ [c]) → Fails V d (c :: cs)
  | up {d : Path} {cs : List Str} : Fails V d.dropLast cs → Fails V d ("..".toList :: cs)
  | step {d : Path} {c : Str} {cs : List Str} {nd : Node} : c ≠ "..".toList → V (d ++ [c]) = some nd → (∀ t, ¬ LinkTo nd t) →
      (cs ≠ [] → IsDir nd) → Fails V (d ++ [c]) cs → Fails V d (c :: cs)
  | link {d : Path} {c : Str} {cs : List Str} {nd : Node} {t : Str} : c ≠ "..".toList → V (d ++ [c]) = some nd → LinkTo nd t →
      t ≠ [] → Fails V (if "/".toList <+: t then [] else d) (comps t ++ cs) → Fails V d (c :: cs)

/-! ### the relation used in the proofs -/

theorem Fails.ups {V : Path → Option Node} {cs : List Str} : ∀ (j : Nat) {d : Path}, Fails V (dropN j d) cs →
    Fails V d (List.replicate j "..".toList ++ cs) := by
  intro j
  induction j with
  | zero => intro d h; exact h
  | succ j ih => intro d h; exact .up (ih h)

section
variable {b0 : Bool} {S : FS}

theorem names_of_nm (hi : Inv b0 S) (hs : Straight S.get?) {f g : Path} (h : Nm S f g) : Names S.get? f g := by
  obtain ⟨b, ns, c, d, k, h1, h2, h3, rfl⟩ := h
  obtain ⟨l, hl⟩ : ∃ l, S.link f = some l := by
    cases e : S.link f with
    | none => exact absurd e h1.isLink
    | some l => exact ⟨l, rfl⟩
  have hb := (h1.base hi (straight_links hs f l hl).1).2.2
  have hpl := h1.plain
  have hle := (leads_of_R hi hs h2 (fun x hx => hpl x (by simp [hx]))).1 hb
  obtain ⟨nd, e⟩ := get_of_has (has_link hl)
  obtain ⟨l', j, g1, g2, g3, _⟩ := h1
  rw [hl] at g1
  injection g1 with g1
  subst g1
  refine ⟨nd, l, List.replicate j "..".toList ++ ns, c, d, e, linkTo_iff.mpr (by rw [← link_of_get e]; exact hl), by rw [g2.1, List.append_assoc],
    (hpl c (by simp)).2.2.1, ?_, Option.isSome_iff_ne_none.mp h3, rfl⟩
  apply Leads.ups
  by_cases hr : isRooted l = true
  · rw [if_pos (rooted_iff.mpr hr), dropN_nil]
    rw [if_pos hr] at g3
    rw [← g3]; exact hle
  · rw [if_neg (fun h => hr (rooted_iff.mp h))]
    rw [if_neg hr] at g3
    rw [← g3]; exact hle

theorem nm_of_names (hi : Inv b0 S) (hs : Straight S.get?) {f g : Path} (h : Names S.get? f g) : Nm S f g := by
  obtain ⟨nd, t, ds, c, d, h1, h2, h3, h4, h5, h6, rfl⟩ := h
  have hl : S.link f = some t := by rw [link_of_get h1]; exact linkTo_iff.mp h2
  obtain ⟨hne, b, ns, hk⟩ := straight_links hs f t hl
  have hk' := hk
  obtain ⟨l, j, g1, g2, g3, g4⟩ := hk'
  rw [hl] at g1
  injection g1 with g1
  subst g1
  have hns : ns ≠ [] := by
    rintro rfl
    have e := h3.symm.trans g2.1
    rw [List.append_nil] at e
    have : c ∈ List.replicate j "..".toList := by rw [← e]; simp
    exact h4 (List.mem_replicate.mp this).2
  obtain ⟨ns', c', rfl⟩ : ∃ ns' c', ns = ns' ++ [c'] := ⟨_, _, (List.dropLast_concat_getLast hns).symm⟩
  have e : ds ++ [c] = (List.replicate j "..".toList ++ ns') ++ [c'] := by rw [← h3, g2.1, List.append_assoc]
  obtain ⟨rfl, e2⟩ := List.append_inj' e rfl
  have e2 := List.singleton_inj.mp e2
  subst e2
  obtain ⟨b1, b2, b3⟩ := dir_above hi (has_of h1) hne (List.prefix_refl _)
  have hroot := dir_above hi (has_of h1) hne List.nil_prefix
  have hu : Ups j ns' (List.replicate j "..".toList ++ ns') := ⟨rfl, fun x hx => g2.2 x (by simp [hx])⟩
  have hr : ∃ k, R S k b ns' d := by
    rw [g3]
    by_cases hr : isRooted t = true
    · rw [if_pos (rooted_iff.mpr hr)] at h5
      rw [if_pos hr]
      have := R_of_leads hi hs h5 j ns' hu hi.root hroot.2.2 (fun _ => hroot.2.1)
      rwa [dropN_nil] at this
    · rw [if_neg (fun h => hr (rooted_iff.mp h))] at h5
      rw [if_neg hr]
      exact R_of_leads hi hs h5 j ns' hu b1 b3 (fun _ => b2)
  obtain ⟨k, hr⟩ := hr
  exact ⟨b, ns', c, d, k, hk, hr, Option.isSome_iff_ne_none.mpr h6, rfl⟩

theorem circle_iff (hi : Inv b0 S) (hs : Straight S.get?) {f : Path} : Circle S.get? f ↔ Circ S f := by
  constructor
  · rintro ⟨P, h1, h2⟩
    exact ⟨P, h1, fun x hx => by obtain ⟨y, h3, h4⟩ := h2 x hx; exact ⟨y, nm_of_names hi hs h3, h4⟩⟩
  · rintro ⟨P, h1, h2⟩
    exact ⟨P, h1, fun x hx => by obtain ⟨y, h3, h4⟩ := h2 x hx; exact ⟨y, names_of_nm hi hs h3, h4⟩⟩

theorem fails_of_F (hi : Inv b0 S) (hs : Straight S.get?) {k : Nat} {f : Path} {ns : List Str} (h : F S k f ns) :
    (∀ c ∈ ns, Plain c) → (S.link f = none → Fails S.get? f ns) ∧
      (∀ d c, f = d ++ [c] → S.has f → Plain c → Fails S.get? d (c :: ns)) := by
  have hnolink : ∀ {f : Path} {nd : Node}, S.get? f = some nd → S.link f = none → ∀ t, ¬ LinkTo nd t := by
    intro f nd e hl t ht
    rw [link_of_get e, linkTo_iff.mp ht] at hl
    cases hl
  induction h with
  | @missing f c cs hl hh =>
    intro hp
    have hg : S.get? (f ++ [c]) = none := Option.not_isSome_iff_eq_none.mp hh
    have h1 : Fails S.get? f (c :: cs) := .missing (hp c (by simp)).2.2.1 hg
    refine ⟨fun _ => h1, ?_⟩
    rintro d c' rfl hh' hc'
    obtain ⟨nd, e⟩ := get_of_has hh'
    by_cases hd : IsDir nd
    · exact .step hc'.2.2.1 e (hnolink e hl) (fun _ => hd) h1
    · exact .notDir hc'.2.2.1 e (hnolink e hl) hd (by simp)
  | @circle f cs hc =>
    intro _
    refine ⟨fun h => absurd h hc.isLink, ?_⟩
    rintro d c rfl _ hpc
    exact .circle hpc.2.2.1 ((circle_iff hi hs).mpr hc)
  | @down k f c cs hl hh hr ih =>
    intro hp
    have h1 := (ih (fun x hx => hp x (by simp [hx]))).2 f c rfl hh (hp c (by simp))
    refine ⟨fun _ => h1, ?_⟩
    rintro d c' rfl hh' hc'
    obtain ⟨nd, e⟩ := get_of_has hh'
    refine .step hc'.2.2.1 e (hnolink e hl) (fun _ => ?_) h1
    rw [isDir_iff, ← nonDir_of_get e]
    exact (has_dir hi hh).2.1
  | @link k f b ns cs hk hr ih =>
    intro hp
    refine ⟨fun h => absurd h hk.isLink, ?_⟩
    rintro d c rfl hh hc
    have hb := (hk.base hi (by simp)).2.2
    have h1 := (ih (fun x hx => by
      rcases List.mem_append.mp hx with hx | hx
      · exact hk.plain x hx
      · exact hp x hx)).1 hb
    obtain ⟨nd, e⟩ := get_of_has hh
    obtain ⟨l, j, g1, g2, g3, _⟩ := hk
    rw [link_of_get e] at g1
    have hl := linkTo_iff.mpr g1
    refine .link hc.2.2.1 e hl (hs _ _ _ e hl).2.1 ?_
    rw [g2.1, List.append_assoc]
    apply Fails.ups
    by_cases hr : isRooted l = true
    · rw [if_pos (rooted_iff.mpr hr), dropN_nil]
      rw [if_pos hr] at g3
      rw [← g3]; exact h1
    · rw [if_neg (fun h => hr (rooted_iff.mp h))]
      rw [if_neg hr, List.dropLast_concat] at g3
      rw [← g3]; exact h1

theorem F_of_fails (hi : Inv b0 S) (hs : Straight S.get?) {d : Path} {cs : List Str} (h : Fails S.get? d cs) :
    ∀ (j : Nat) (ns : List Str), Ups j ns cs → S.has d → S.link d = none → (cs ≠ [] → S.nonDir d = false) → ∃ k, F S k (dropN j d) ns := by
  have hnorm : ∀ {j : Nat} {ns : List Str} {c : Str} {cs : List Str}, c ≠ "..".toList → Ups j ns (c :: cs) → j = 0 ∧ ns = c :: cs := by
    intro j ns c cs hc hu
    cases j with
    | zero => exact ⟨rfl, by simpa using hu.1.symm⟩
    | succ j => exact absurd (List.cons.inj hu.1).1 hc
  have hlink : ∀ {f : Path} {nd : Node}, S.get? f = some nd → (∀ t, ¬ LinkTo nd t) → S.link f = none := by
    intro f nd hv hnl
    rw [link_of_get hv]
    cases e : nd.link with
    | none => rfl
    | some t => exact absurd (linkTo_iff.mpr e) (hnl t)
  induction h with
  | @missing d c cs hc hv =>
    intro j ns hu _ hl _
    obtain ⟨rfl, rfl⟩ := hnorm hc hu
    exact ⟨0, .missing hl (by show ¬ (S.get? (d ++ [c])).isSome = true; rw [hv]; simp)⟩
  | @notDir d c cs nd hc hv hnl hnd hne =>
    intro j ns hu _ hl _
    obtain ⟨rfl, rfl⟩ := hnorm hc hu
    obtain ⟨c2, cs, rfl⟩ := List.exists_cons_of_ne_nil hne
    have hn : S.nonDir (d ++ [c]) = true := by
      rw [nonDir_of_get hv]
      cases e : nd.nonDir with
      | true => rfl
      | false => exact absurd (isDir_iff.mpr e) hnd
    refine ⟨_, .down hl (has_of hv) (.missing (hlink hv hnl) ?_)⟩
    show ¬ (S.get? (d ++ [c] ++ [c2])).isSome = true
    rw [hi.leaf _ hn c2]; simp
  | @circle d c cs hc hcirc =>
    intro j ns hu _ hl _
    obtain ⟨rfl, rfl⟩ := hnorm hc hu
    have hcirc := (circle_iff hi hs).mp hcirc
    obtain ⟨l, e⟩ : ∃ l, S.link (d ++ [c]) = some l := by
      cases e : S.link (d ++ [c]) with
      | none => exact absurd e hcirc.isLink
      | some l => exact ⟨l, rfl⟩
    exact ⟨_, .down hl (has_link e) (.circle hcirc)⟩
  | @up d cs _ ih =>
    intro j ns hu hd hl hn
    cases j with
    | zero =>
      exfalso
      have := hu.2 "..".toList (by rw [show ns = _ from by simpa using hu.1.symm]; simp)
      exact this.2.2.1 rfl
    | succ j =>
      rcases snoc_cases d with rfl | ⟨q, c, rfl⟩
      · exact ih j ns ⟨(List.cons.inj hu.1).2, hu.2⟩ hd hl (fun _ => hn (by simp))
      · obtain ⟨g1, g2, g3⟩ := has_dir hi hd
        rw [List.dropLast_concat] at ih
        show ∃ k, F S k (dropN j (q ++ [c]).dropLast) ns
        rw [List.dropLast_concat]
        exact ih j ns ⟨(List.cons.inj hu.1).2, hu.2⟩ g1 g3 (fun _ => g2)
  | @step d c cs nd hc hv hnl hdir _ ih =>
    intro j ns hu hd hl hn
    obtain ⟨rfl, rfl⟩ := hnorm hc hu
    obtain ⟨k, hr⟩ := ih 0 cs ⟨by simp, fun x hx => hu.2 x (by simp [hx])⟩ (has_of hv) (hlink hv hnl) (fun h => by
      rw [nonDir_of_get hv]; exact isDir_iff.mp (hdir h))
    exact ⟨_, .down hl (has_of hv) hr⟩
  | @link d c cs nd t hc hv hlt hne _ ih =>
    intro j ns hu hd hl hn
    obtain ⟨rfl, rfl⟩ := hnorm hc hu
    have hl' : S.link (d ++ [c]) = some t := by rw [link_of_get hv]; exact linkTo_iff.mp hlt
    obtain ⟨_, b, ns', hk⟩ := straight_links hs _ _ hl'
    have hk' := hk
    obtain ⟨l, j', g1, g2, g3, _⟩ := hk'
    rw [hl'] at g1
    injection g1 with g1
    subst g1
    obtain ⟨b1, b2, b3⟩ := has_dir hi (has_of hv)
    have hu' : Ups j' (ns' ++ cs) (comps t ++ cs) := by
      refine ⟨by rw [g2.1, List.append_assoc], ?_⟩
      intro x hx
      rcases List.mem_append.mp hx with hx | hx
      · exact g2.2 x hx
      · exact hu.2 x (by simp [hx])
    have hroot := dir_above hi (has_of hv) (by simp) List.nil_prefix
    by_cases hr : isRooted t = true
    · rw [if_pos (rooted_iff.mpr hr)] at ih
      rw [if_pos hr] at g3
      obtain ⟨k, h1⟩ := ih j' (ns' ++ cs) hu' hi.root hroot.2.2 (fun _ => hroot.2.1)
      rw [dropN_nil, ← g3] at h1
      exact ⟨_, .down hl (has_of hv) (.link hk h1)⟩
    · rw [if_neg (fun h => hr (rooted_iff.mp h))] at ih
      rw [if_neg hr, List.dropLast_concat] at g3
      obtain ⟨k, h1⟩ := ih j' (ns' ++ cs) hu' b1 b3 (fun _ => b2)
      rw [← g3] at h1
      exact ⟨_, .down hl (has_of hv) (.link hk h1)⟩
end

/-! ### the theorem -/

/-- C68, for the file systems `Load` builds in which the targets of symlinks are straight (see `Spec.Straight`): `Open` returns an error
exactly for invalid names and if path resolution comes to an end without finding a file. -/
theorem C68_error_partial (m : Nat) (layers : List (List Entry)) (oc : Bool) (S : FS) (hload : loadLayers m layers oc = some (.ok S))
    (hs : Straight S.get?) (name : Str) :
    (∃ n, openFile n S name = some (.error ())) ↔ validPath name = false ∨ Fails S.get? [] (comps name) := by
  have hi : Inv false S := load_inv (fun h => (nomatch h)) hload
  have hsl := straight_links hs
  have hroot : S.link [] = none := by
    cases e : S.link [] with
    | none => rfl
    | some t => exact absurd rfl (hsl _ _ e).1
  cases hv : validPath name with
  | false => exact ⟨fun _ => .inl rfl, fun _ => ⟨0, by unfold openFile; rw [hv]; rfl⟩⟩
  | true =>
    obtain ⟨hp, _, h3, h4⟩ := valid_comps hv
    have hfs : ∀ n, fsGet (n + 1) S [] name false false =
        if comps name = [] then some (.ok (S, [])) else walk (G (n + 1)) S [] (comps name) false := by
      intro n
      unfold fsGet fsGetWith
      simp only
      rw [h4, if_neg (by simp), h3]
      split
      · exact (get_dot (cr := false) (n := n) (fl := false)).trans (if_neg (by simp))
      · rfl
    have hdot : ∀ n p, get (n + 1) S p ".".toList false true = resolve (fun S d l => fsGetWith (G n) S d l false) n S [] p :=
      fun n p => (get_dot (cr := false) (n := n) (fl := true)).trans (if_pos rfl)
    constructor
    · rintro ⟨n, h⟩
      right
      have key : ∃ k, F S k [] (comps name) := by
        unfold openFile at h
        rw [hv, Bool.not_true, if_neg (by decide)] at h
        cases n with
        | zero =>
          exfalso
          have : fsGet 0 S [] name false false = none := by
            unfold fsGet fsGetWith
            simp only
            rw [h4, if_neg (by simp)]
            have : ∀ (cs : List Str) d, cs ≠ [] → walk (G 0) S d cs false = none := by
              intro cs d hc
              match cs, hc with
              | [c], _ => rfl
              | c :: c2 :: cs, _ =>
                rw [walk]
                · rfl
                · simp
            exact this _ _ (split_ne_nil _ _)
          rw [this] at h
          cases h
        | succ n =>
          rw [hfs] at h
          by_cases hn : comps name = []
          · exfalso
            rw [if_pos hn, bind_some_ok, hdot] at h
            cases n with
            | zero => cases h
            | succ n => rw [resolve_here hroot] at h; cases h
          · rw [if_neg hn] at h
            cases e : walk (G (n + 1)) S [] (comps name) false with
            | none => rw [e] at h; cases h
            | some x =>
              cases x with
              | error u => exact walk_err hi hsl (get_err hi hsl (n + 1)) _ _ _ hn hp hi.root e
              | ok x =>
                obtain ⟨x1, x2⟩ := x
                obtain ⟨rfl, _, w3⟩ := walk_fwd (get_fwd hi hsl (n + 1)) _ _ _ _ _ hn hp hi.root e
                obtain ⟨d, k, h5, h6⟩ := walk_lnk (get_fwd hi hsl (n + 1)) _ _ _ _ hn hp hi.root e
                rw [e, bind_some_ok] at h
                simp only at h
                rw [hdot] at h
                have herr : resolve (fun S d l => fsGetWith (G n) S d l false) n x1 [] x2 = some (.error ()) := by
                  cases e2 : resolve (fun S d l => fsGetWith (G n) S d l false) n x1 [] x2 with
                  | none => rw [e2] at h; cases h
                  | some y =>
                    cases y with
                    | error u => rfl
                    | ok y => rw [e2] at h; cases h
                obtain ⟨j, hj⟩ := resolve_err hi hsl (get_err hi hsl n) _ _ _ (w3 rfl).1 (by simp) herr
                have e3 : (comps name).dropLast ++ [(comps name).getLast hn] = comps name := List.dropLast_concat_getLast hn
                rw [List.getLast?_eq_some_getLast hn] at h6
                have h6 : x2 = d ++ [(comps name).getLast hn] := h6
                rw [← e3]
                rw [h6] at hj
                exact ⟨_, h5.fails (.down h5.end (by rw [← h6]; exact (w3 rfl).1) hj)⟩
      obtain ⟨k, hF⟩ := key
      exact (fails_of_F hi hs hF hp).1 hroot
    · rintro (h | h)
      · cases h
      have hn : comps name ≠ [] := by
        intro e; rw [e] at h; cases h
      have hdir : S.nonDir [] = false ∨ S.nonDir [] = true := by cases S.nonDir [] <;> simp
      have key : ∃ k, F S k [] (comps name) := by
        rcases hdir with hdir | hdir
        · exact F_of_fails hi hs h 0 (comps name) ⟨by simp, hp⟩ hi.root hroot (fun _ => hdir)
        · obtain ⟨c, cs, e⟩ := List.exists_cons_of_ne_nil hn
          refine ⟨0, ?_⟩
          rw [e]
          exact .missing hroot (by unfold FS.has; rw [hi.leaf _ hdir c]; simp)
      obtain ⟨k, hF⟩ := key
      obtain ⟨n0, hw⟩ := walk_fails hi hsl _ k (fun k' _ => follow_fails hi hsl k') [] hn hp hi.root hF
      rcases hw with hw | ⟨r, k2, w1, w2, w3, w4⟩
      · refine ⟨n0 + 1, ?_⟩
        unfold openFile
        rw [hv, Bool.not_true, if_neg (by decide), hfs, if_neg hn, hw _ (by omega) false]
        rfl
      · obtain ⟨n1, h1⟩ := follow_fails hi hsl k2 r w1 w3
        refine ⟨n0 + n1 + 1, ?_⟩
        unfold openFile
        rw [hv, Bool.not_true, if_neg (by decide), hfs, if_neg hn, (w4 _ (by omega)).2, bind_some_ok]
        simp only
        rw [hdot, (h1 _ (by omega)).2 _ (by omega) []]
        rfl

/-- C68, for the same file systems: `Open` returns exactly if the name is invalid, or path resolution comes to an end, be it at a
file or not.  So it does not return exactly if path resolution goes on for ever in some other way than in a circle of symlinks that
name each other. -/
theorem C68_returns_partial (m : Nat) (layers : List (List Entry)) (oc : Bool) (S : FS) (hload : loadLayers m layers oc = some (.ok S))
    (hs : Straight S.get?) (name : Str) :
    (∃ n, openFile n S name ≠ none) ↔ validPath name = false ∨ (∃ p, Leads S.get? [] (comps name) p) ∨ Fails S.get? [] (comps name) := by
  have herr := C68_error_partial m layers oc S hload hs name
  have hok := C98_open_partial m layers oc S hload hs name
  constructor
  · rintro ⟨n, h⟩
    cases e : openFile n S name with
    | none => exact absurd e h
    | some r =>
      cases r with
      | error u =>
        rcases herr.mp ⟨n, e⟩ with h | h
        · exact .inl h
        · exact .inr (.inr h)
      | ok x => exact .inr (.inl ⟨x.1, ((hok x.1 x.2).mp ⟨n, e⟩).2.1⟩)
  · intro h
    cases hv : validPath name with
    | false =>
      obtain ⟨n, e⟩ := herr.mpr (.inl hv)
      exact ⟨n, by rw [e]; simp⟩
    | true =>
      rcases h with h | ⟨p, h⟩ | h
      · rw [hv] at h; cases h
      · obtain ⟨hp, _⟩ := valid_comps hv
        have hd : ∃ d, Leads S.get? [] (comps name).dropLast d := by
          by_cases hn : comps name = []
          · rw [hn]; exact ⟨[], .here⟩
          · have e3 : (comps name).dropLast ++ [(comps name).getLast hn] = comps name := List.dropLast_concat_getLast hn
            exact leads_init h _ _ e3.symm (hp _ (List.getLast_mem hn)).2.2.1
        obtain ⟨d, hd⟩ := hd
        obtain ⟨n, e⟩ := (hok p _).mpr ⟨hv, h, d, hd, rfl⟩
        exact ⟨n, by rw [e]; simp⟩
      · obtain ⟨n, e⟩ := herr.mpr (.inr h)
        exact ⟨n, by rw [e]; simp⟩

/-! ### cases -/

/-- "usr/lib" holds a file; "lib" is a link to it, "g" a link through that link to the file, "n" one to nothing behind it, "x" one through
the file; "a" and "b" name each other, and "d" names, through the link "q/up", a link to "a" -/
def exEnds : List (List Entry) :=
  [[exDir "usr/", exDir "usr/lib/", exFile "usr/lib/f" [1], exLink "lib" "usr/lib", exLink "g" "lib/f", exLink "n" "lib/none", exLink "x" "lib/f/y"],
   [exDir "q/", exLink "a" "/b", exLink "b" "a", exLink "q/up" "../q"], [exLink "d" "q/up/e", exLink "q/e" "/a"]]

/-- the condition of the theorems holds, that of `C68_open_returns_partial` does not: targets pass through links -/
example : loadLayers 9 exEnds false = some (.ok (loaded exEnds)) ∧ Straight (loaded exEnds).get? ∧ ¬ DirectLinks (loaded exEnds) := by
  refine ⟨by decide +kernel, straight_of (by decide +kernel), ?_⟩
  intro h
  have h1 := h ["g".toList] "lib/f".toList (by decide +kernel) ["lib".toList] (by decide +kernel)
  exact absurd h1 (by decide +kernel)

example : openFile 16 (loaded exEnds) "g".toList = some (.ok (["usr".toList, "lib".toList, "f".toList], ["g".toList])) ∧
    openFile 16 (loaded exEnds) "n".toList = some (.error ()) ∧ openFile 16 (loaded exEnds) "x".toList = some (.error ()) ∧
    openFile 16 (loaded exEnds) "d".toList = some (.error ()) :=
  ⟨by decide +kernel, by decide +kernel, by decide +kernel, by decide +kernel⟩

/-- by the theorem, path resolution fails for "d": it comes into the circle of "a" and "b" -/
example : Fails (loaded exEnds).get? [] (comps "d".toList) :=
  ((C68_error_partial 9 exEnds false _ (by decide +kernel) (straight_of (by decide +kernel)) "d".toList).mp ⟨16, by decide +kernel⟩).resolve_left
    (by decide)

/-- and for the link from "a" to "a/b", on which the code hangs, it neither finds a file nor fails in one of these ways: it goes on for ever
with more and more elements -/
example : ¬ (∃ p, Leads exSelf.get? [] (comps "a".toList) p) ∧ ¬ Fails exSelf.get? [] (comps "a".toList) := by
  have h := C68_returns_partial 3 [[exLink "a" "a/b"]] false exSelf (C68_violated.1 3 (by omega)) (straight_of (by decide +kernel)) "a".toList
  have hn : ¬ ∃ n, openFile n exSelf "a".toList ≠ none := by
    rintro ⟨n, hn⟩
    exact hn (C68_violated.2.1 n)
  exact ⟨fun hl => hn (h.mpr (.inr (.inl hl))), fun hf => hn (h.mpr (.inr (.inr hf)))⟩

end Squash
