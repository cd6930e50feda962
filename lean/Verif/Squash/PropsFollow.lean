import Verif.Squash.Follow
/-! C98: opening a file follows symlinks as the operating system would. -/
namespace Squash
open Go Spec

/-- the node is a symlink with this target -/
def Spec.LinkTo (nd : Node) (t : Str) : Prop := ∃ h, nd.header = some h ∧ h.typeflag = '2' ∧ h.linkname = t

/-- the node is a directory (a nil header is an implied directory) -/
def Spec.IsDir (nd : Node) : Prop := ∀ h, nd.header = some h → h.typeflag = '5'

/-- Path resolution of path_resolution(7) with the image's root as `/`: from the directory `d`, along the elements `cs`, one
goes to `p`.  `..` goes to the parent of the directory one is in; a symlink is replaced by the elements of its target,
which start at the root if the target begins with a slash, else at the directory the symlink is in; only directories are passed
through.  (Simplified: no limit on the number of symlinks, no permissions, and a slash at the end of a target is ignored.) -/
inductive Spec.Leads (V : Path → Option Node) : Path → List Str → Path → Prop where
  | here {d : Path} : Leads V d [] d
  | up {d : Path} {cs : List Str} {p : Path} : Leads V d.dropLast cs p → Leads V d ("..".toList :: cs) p
  | step {d : Path} {c : Str} {cs : List Str} {p : Path} {nd : Node} : c ≠ "..".toList → V (d ++ [c]) = some nd → (∀ t, ¬ LinkTo nd t) →
      (cs ≠ [] → IsDir nd) → Leads V (d ++ [c]) cs p → Leads V d (c :: cs) p
  | link {d : Path} {c : Str} {cs : List Str} {p : Path} {nd : Node} {t : Str} : c ≠ "..".toList → V (d ++ [c]) = some nd → LinkTo nd t →
      t ≠ [] → Leads V (if "/".toList <+: t then [] else d) (comps t ++ cs) p → Leads V d (c :: cs) p

/-- a target that has `..` at the front only (or not at all), is not empty and not the root -/
def Spec.StraightTarget (t : Str) : Prop :=
  t ≠ [] ∧ ∃ j ns, comps t = List.replicate j "..".toList ++ ns ∧ "..".toList ∉ ns ∧ ("/".toList <+: t → ns ≠ [])

/-- the symlinks for which the code agrees with that: their targets are such; and the root itself is not a symlink -/
def Spec.Straight (V : Path → Option Node) : Prop := ∀ f nd t, V f = some nd → LinkTo nd t → f ≠ [] ∧ StraightTarget t

/-! ### the relation used in the proofs -/

theorem linkTo_iff {nd : Node} {t : Str} : LinkTo nd t ↔ nd.link = some t := by
  unfold LinkTo Node.link
  cases nd.header with
  | none => simp
  | some h =>
    simp only [Option.some.injEq, exists_eq_left']
    by_cases e : h.typeflag = typeSymlink
    · rw [if_pos e]
      exact ⟨fun h => by rw [h.2], fun h => ⟨e, by injection h⟩⟩
    · rw [if_neg e]
      exact ⟨fun h => absurd h.1 e, fun h => (nomatch h)⟩

theorem isDir_iff {nd : Node} : IsDir nd ↔ nd.nonDir = false := by
  unfold IsDir Node.nonDir
  cases nd.header with
  | none => simp
  | some h => by_cases e : h.typeflag = '5' <;> simp [typeDir, e]

theorem rooted_iff {t : Str} : "/".toList <+: t ↔ isRooted t = true := by
  cases t with
  | nil => decide
  | cons c t =>
    constructor
    · rintro ⟨u, h⟩
      have : '/' = c := (List.cons.inj (show '/' :: u = c :: t from h)).1
      simp [isRooted, ← this]
    · intro h
      simp only [isRooted, List.head?_cons, Option.some.injEq, decide_eq_true_eq] at h
      subst h
      exact ⟨t, rfl⟩

theorem mem_comps {c t : Str} (h : c ∈ comps t) : c ≠ [] ∧ c ≠ ".".toList ∧ '/' ∉ c := by
  unfold comps at h
  obtain ⟨h1, h2⟩ := List.mem_filter.mp h
  simp only [decide_eq_true_eq] at h2
  exact ⟨h2.1, h2.2, split_no_sep h1⟩

theorem straight_lk {S : FS} {f : Path} {l : Str} (h : StraightTarget l) (hl : S.link f = some l) : ∃ b ns, Lk S f b ns := by
  obtain ⟨_, j, ns, h3, h4, h5⟩ := h
  refine ⟨_, ns, l, j, hl, ⟨h3, ?_⟩, rfl, fun h => h5 (rooted_iff.mpr h)⟩
  intro c hc
  obtain ⟨g1, g2, g3⟩ := mem_comps (t := l) (c := c) (by rw [h3]; simp [hc])
  exact ⟨g1, g2, fun e => h4 (by rw [show "..".toList = c from e.symm]; exact hc), g3⟩

theorem straight_links {S : FS} (hs : Straight S.get?) : StraightLinks S := by
  intro f l hl
  have hl' := hl
  unfold FS.link at hl'
  cases e : S.get? f with
  | none => rw [e] at hl'; cases hl'
  | some nd =>
    rw [e] at hl'
    obtain ⟨h1, h2⟩ := hs f nd l e (linkTo_iff.mpr hl')
    exact ⟨h1, straight_lk h2 hl⟩

theorem Leads.ups {V : Path → Option Node} {cs : List Str} {p : Path} : ∀ (j : Nat) {d : Path}, Leads V (dropN j d) cs p →
    Leads V d (List.replicate j "..".toList ++ cs) p := by
  intro j
  induction j with
  | zero => intro d h; exact h
  | succ j ih => intro d h; exact .up (ih h)

theorem dropN_nil : ∀ j, dropN j [] = [] := by
  intro j
  induction j with
  | zero => rfl
  | succ j ih => exact ih

theorem link_of_get {S : FS} {f : Path} {nd : Node} (h : S.get? f = some nd) : S.link f = nd.link := by unfold FS.link; rw [h]

theorem nonDir_of_get {S : FS} {f : Path} {nd : Node} (h : S.get? f = some nd) : S.nonDir f = nd.nonDir := by unfold FS.nonDir; rw [h]

theorem get_of_has {S : FS} {f : Path} (h : S.has f) : ∃ nd, S.get? f = some nd := Option.isSome_iff_exists.mp h

theorem leads_of_R {b0 : Bool} {S : FS} (hi : Inv b0 S) (hs : Straight S.get?) {k : Nat} {f : Path} {ns : List Str} {p : Path} (h : R S k f ns p) :
    (∀ c ∈ ns, Plain c) → (S.link f = none → Leads S.get? f ns p) ∧
      (∀ d c, f = d ++ [c] → S.has f → Plain c → Leads S.get? d (c :: ns) p) := by
  induction h with
  | @done f hl =>
    intro _
    refine ⟨fun _ => .here, ?_⟩
    rintro d c rfl hh hc
    obtain ⟨nd, e⟩ := get_of_has hh
    refine .step hc.2.2.1 e ?_ (fun h => absurd rfl h) .here
    intro t ht
    rw [link_of_get e, linkTo_iff.mp ht] at hl
    cases hl
  | @down k f c cs p hl hh hr ih =>
    intro hp
    have h1 := (ih (fun x hx => hp x (by simp [hx]))).2 f c rfl hh (hp c (by simp))
    refine ⟨fun _ => h1, ?_⟩
    rintro d c' rfl hh' hc'
    obtain ⟨nd, e⟩ := get_of_has hh'
    refine .step hc'.2.2.1 e ?_ (fun _ => ?_) h1
    · intro t ht
      rw [link_of_get e, linkTo_iff.mp ht] at hl
      cases hl
    · rw [isDir_iff, ← nonDir_of_get e]
      exact (has_dir hi hh).2.1
  | @link k f b ns cs p hk hr ih =>
    intro hp
    refine ⟨fun h => absurd h hk.isLink, ?_⟩
    rintro d c rfl hh hc
    have hb := (hk.base hi (by simp)).2.2
    have h1 := (ih (fun x hx => by
      rcases List.mem_append.mp hx with hx | hx
      · exact hk.plain x hx
      · exact hp x hx)).1 hb
    obtain ⟨nd, e⟩ := get_of_has hh
    obtain ⟨l, j, g1, g2, g3, _⟩ := hk
    rw [link_of_get e] at g1
    have hl := linkTo_iff.mpr g1
    refine .link hc.2.2.1 e hl (hs _ _ _ e hl).2.1 ?_
    rw [g2.1, List.append_assoc]
    apply Leads.ups
    by_cases hr : isRooted l = true
    · rw [if_pos (rooted_iff.mpr hr), dropN_nil]
      rw [if_pos hr] at g3
      rw [← g3]; exact h1
    · rw [if_neg (fun h => hr (rooted_iff.mp h))]
      rw [if_neg hr, List.dropLast_concat] at g3
      rw [← g3]; exact h1

theorem R_of_leads {b0 : Bool} {S : FS} (hi : Inv b0 S) (hs : Straight S.get?) {d : Path} {cs : List Str} {p : Path} (h : Leads S.get? d cs p) :
    ∀ (j : Nat) (ns : List Str), Ups j ns cs → S.has d → S.link d = none → (cs ≠ [] → S.nonDir d = false) → ∃ k, R S k (dropN j d) ns p := by
  have hnorm : ∀ {j : Nat} {ns : List Str} {c : Str} {cs : List Str}, c ≠ "..".toList → Ups j ns (c :: cs) → j = 0 ∧ ns = c :: cs := by
    intro j ns c cs hc hu
    cases j with
    | zero => exact ⟨rfl, by simpa using hu.1.symm⟩
    | succ j => exact absurd (List.cons.inj hu.1).1 hc
  induction h with
  | @here d =>
    intro j ns hu _ hl _
    obtain ⟨h1, rfl⟩ := List.append_eq_nil_iff.mp hu.1.symm
    have : j = 0 := by simpa using h1
    subst this
    exact ⟨0, .done hl⟩
  | @up d cs p _ ih =>
    intro j ns hu hd hl hn
    cases j with
    | zero =>
      exfalso
      have := hu.2 "..".toList (by rw [show ns = _ from by simpa using hu.1.symm]; simp)
      exact this.2.2.1 rfl
    | succ j =>
      rcases snoc_cases d with rfl | ⟨q, c, rfl⟩
      · exact ih j ns ⟨(List.cons.inj hu.1).2, hu.2⟩ hd hl (fun _ => hn (by simp))
      · obtain ⟨g1, g2, g3⟩ := has_dir hi hd
        rw [List.dropLast_concat] at ih
        show ∃ k, R S k (dropN j (q ++ [c]).dropLast) ns p
        rw [List.dropLast_concat]
        exact ih j ns ⟨(List.cons.inj hu.1).2, hu.2⟩ g1 g3 (fun _ => g2)
  | @step d c cs p nd hc hv hnl hdir _ ih =>
    intro j ns hu hd hl hn
    obtain ⟨rfl, rfl⟩ := hnorm hc hu
    have hl' : S.link (d ++ [c]) = none := by
      rw [link_of_get hv]
      cases e : nd.link with
      | none => rfl
      | some t => exact absurd (linkTo_iff.mpr e) (hnl t)
    obtain ⟨k, hr⟩ := ih 0 cs ⟨by simp, fun x hx => hu.2 x (by simp [hx])⟩ (has_of hv) hl' (fun h => by
      rw [nonDir_of_get hv]; exact isDir_iff.mp (hdir h))
    exact ⟨_, .down hl (has_of hv) hr⟩
  | @link d c cs p nd t hc hv hlt hne _ ih =>
    intro j ns hu hd hl hn
    obtain ⟨rfl, rfl⟩ := hnorm hc hu
    have hl' : S.link (d ++ [c]) = some t := by rw [link_of_get hv]; exact linkTo_iff.mp hlt
    obtain ⟨_, b, ns', hk⟩ := straight_links hs _ _ hl'
    have hk' := hk
    obtain ⟨l, j', g1, g2, g3, _⟩ := hk'
    rw [hl'] at g1
    injection g1 with g1
    subst g1
    obtain ⟨b1, b2, b3⟩ := has_dir hi (has_of hv)
    have hu' : Ups j' (ns' ++ cs) (comps t ++ cs) := by
      refine ⟨by rw [g2.1, List.append_assoc], ?_⟩
      intro x hx
      rcases List.mem_append.mp hx with hx | hx
      · exact g2.2 x hx
      · exact hu.2 x (by simp [hx])
    have hroot : S.nonDir [] = false ∧ S.link [] = none :=
      ⟨(dir_above hi (has_of hv) (by simp) List.nil_prefix).2.1, (dir_above hi (has_of hv) (by simp) List.nil_prefix).2.2⟩
    by_cases hr : isRooted t = true
    · rw [if_pos (rooted_iff.mpr hr)] at ih
      rw [if_pos hr] at g3
      obtain ⟨k, h1⟩ := ih j' (ns' ++ cs) hu' hi.root hroot.2 (fun _ => hroot.1)
      rw [dropN_nil, ← g3] at h1
      exact ⟨_, .down hl (has_of hv) (.link hk h1)⟩
    · rw [if_neg (fun h => hr (rooted_iff.mp h))] at ih
      rw [if_neg hr, List.dropLast_concat] at g3
      obtain ⟨k, h1⟩ := ih j' (ns' ++ cs) hu' b1 b3 (fun _ => b2)
      rw [← g3] at h1
      exact ⟨_, .down hl (has_of hv) (.link hk h1)⟩

/-! ### the walk of `Open` -/

/-- where a walk that does not follow its last element ends -/
theorem walk_lnk {S : FS} {n : Nat} (hg : GetFwd S n) : ∀ (ns : List Str) (f : Path) (S' : FS) (r : Path), ns ≠ [] → (∀ c ∈ ns, Plain c) →
    S.has f → walk (G n) S f ns false = some (.ok (S', r)) → ∃ d k, R S k f ns.dropLast d ∧ r = d ++ ns.getLast?.toList := by
  intro ns
  induction ns with
  | nil => intro f S' r h; exact absurd rfl h
  | cons c cs ih =>
    intro f S' r _ hp hf h
    cases cs with
    | nil =>
      obtain ⟨_, f', j, h1, _, h3, _⟩ := hg f c false S' r hf (hp c (by simp)) h
      exact ⟨f', j, h1, h3 rfl⟩
    | cons c2 cs =>
      rw [walk] at h
      · obtain ⟨⟨x1, x2⟩, e1, h'⟩ := bind_ok.mp h
        clear h
        obtain ⟨rfl, f', j, h1, h2, h3, _⟩ := hg f c false x1 x2 hf (hp c (by simp)) e1
        have h3 := h3 rfl
        subst h3
        obtain ⟨d, k, h4, h5⟩ := ih (f' ++ [c]) S' r (by simp) (fun x hx => hp x (by simp [hx])) h2 h'
        exact ⟨d, _, R.append h1 (.down h1.end h2 h4), by rw [h5, List.getLast?_cons_cons]⟩
      · simp

theorem valid_comps {name : Str} (h : validPath name = true) : (∀ c ∈ comps name, Plain c) ∧ isRooted name = false ∧
    (split '/' (clean name) = if comps name = [] then [['.']] else comps name) ∧ isRooted (clean name) = false := by
  have hp : ∀ c ∈ comps name, Plain c := by
    unfold validPath at h
    rcases (Bool.or_eq_true _ _).mp h with h | h
    · have : name = ".".toList := by simpa using h
      subst this
      intro c hc
      exact absurd hc (by rw [show comps ".".toList = [] by decide]; simp)
    · intro c hc
      obtain ⟨g1, g2, g3⟩ := mem_comps hc
      refine ⟨g1, g2, ?_, g3⟩
      have := List.all_eq_true.mp h c (List.mem_filter.mp hc).1
      simp only [Bool.and_eq_true, decide_eq_true_eq] at this
      exact this.2
  have hr : isRooted name = false := by
    cases e : isRooted name with
    | false => rfl
    | true =>
      exfalso
      obtain ⟨u, rfl⟩ := rooted_iff.mpr e
      unfold validPath at h
      rcases (Bool.or_eq_true _ _).mp h with h | h
      · have : "/".toList ++ u = ".".toList := by simp at h
        exact absurd (List.cons.inj this).1 (by decide)
      · have e2 : Go.split '/' ("/".toList ++ u) = [] :: Go.split '/' u := split_cons (w := []) (by simp)
        rw [e2] at h
        simp at h
  obtain ⟨c1, _, c3⟩ := clean_ups (j := 0) (ns := comps name) (l := name) ⟨by simp, hp⟩
  refine ⟨hp, hr, ?_, by rw [c1, hr]⟩
  simpa using c3 hr

/-- C98, for the file systems `Load` builds in which the targets of symlinks are straight (see `Spec.Straight`; else it fails:
`C98_violated`, `C98_violated_root`): `Open` succeeds exactly for the valid names that lead to a file by the operating
system's rules, in whatever number of steps, through links to links and links in the middle of paths, and gives that file; the second
component of the handle, which `Stat` takes the name from, is the file named itself, not followed. -/
theorem C98_open_partial (m : Nat) (layers : List (List Entry)) (oc : Bool) (S : FS) (hload : loadLayers m layers oc = some (.ok S))
    (hs : Straight S.get?) (name : Str) (p l : Path) :
    (∃ n, openFile n S name = some (.ok (p, l))) ↔
      validPath name = true ∧ Leads S.get? [] (comps name) p ∧
        ∃ d, Leads S.get? [] (comps name).dropLast d ∧ l = d ++ (comps name).getLast?.toList := by
  have hi : Inv false S := load_inv (fun h => (nomatch h)) hload
  have hsl := straight_links hs
  have hroot : S.link [] = none := by
    cases e : S.link [] with
    | none => rfl
    | some t => exact absurd rfl (hsl _ _ e).1
  have hRL : ∀ {ns : List Str} {p : Path}, (∀ c ∈ ns, Plain c) → ((∃ k, R S k [] ns p) ↔ Leads S.get? [] ns p) := by
    intro ns p hp
    constructor
    · rintro ⟨k, h⟩; exact (leads_of_R hi hs h hp).1 hroot
    · intro h
      by_cases hn : ns = []
      · subst hn
        cases h
        exact ⟨0, .done hroot⟩
      · have hdir : S.nonDir [] = false := by
          obtain ⟨c, cs, rfl⟩ := List.exists_cons_of_ne_nil hn
          cases h with
          | up _ => exact absurd rfl (hp _ (by simp)).2.2.1
          | step _ hv _ _ _ => exact (dir_above hi (has_of hv) (by simp) List.nil_prefix).2.1
          | link _ hv _ _ _ => exact (dir_above hi (has_of hv) (by simp) List.nil_prefix).2.1
        exact R_of_leads hi hs h 0 ns ⟨by simp, hp⟩ hi.root hroot (fun _ => hdir)
  -- the walk, for a valid name
  have hfs : validPath name = true → ∀ n, fsGet (n + 1) S [] name false false =
      if comps name = [] then some (.ok (S, [])) else walk (G (n + 1)) S [] (comps name) false := by
    intro hv n
    obtain ⟨_, _, h3, h4⟩ := valid_comps hv
    unfold fsGet fsGetWith
    simp only
    rw [h4, if_neg (by simp), h3]
    split
    · exact (get_dot (cr := false) (n := n) (fl := false)).trans (if_neg (by simp))
    · rfl
  constructor
  · rintro ⟨n, h⟩
    unfold openFile at h
    split at h
    · cases h
    rename_i hv
    have hv : validPath name = true := by simpa using hv
    obtain ⟨hp, _⟩ := valid_comps hv
    refine ⟨hv, ?_⟩
    obtain ⟨⟨x1, x2⟩, e1, h1⟩ := bind_ok.mp h
    clear h
    obtain ⟨⟨y1, y2⟩, e2, h2⟩ := bind_ok.mp h1
    clear h1
    simp only [Option.some.injEq, Except.ok.injEq, Prod.mk.injEq] at h2
    obtain ⟨rfl, rfl⟩ := h2
    cases n with
    | zero => cases e2
    | succ n =>
      rw [hfs hv] at e1
      have hg := get_fwd hi hsl (n + 1)
      have hx : x1 = S ∧ (S.has x2 ∧ ∀ i p, R S i x2 [] p → ∃ j, R S j [] (comps name) p) ∧
          ∃ d k, R S k [] (comps name).dropLast d ∧ x2 = d ++ (comps name).getLast?.toList := by
        by_cases hn : comps name = []
        · rw [if_pos hn] at e1
          simp only [Option.some.injEq, Except.ok.injEq, Prod.mk.injEq] at e1
          obtain ⟨rfl, rfl⟩ := e1
          rw [hn]
          exact ⟨rfl, ⟨hi.root, fun i p h => ⟨i, h⟩⟩, [], 0, .done hroot, rfl⟩
        · rw [if_neg hn] at e1
          obtain ⟨w1, _, w3⟩ := walk_fwd hg _ _ _ _ _ hn hp hi.root e1
          exact ⟨w1, w3 rfl, walk_lnk hg _ _ _ _ hn hp hi.root e1⟩
      obtain ⟨rfl, ⟨hh, hx⟩, d, k, hd, hl⟩ := hx
      have e2 : Gc false (n + 1) x1 x2 ".".toList true = some (.ok (y1, y2)) := e2
      rw [get_dot, if_pos rfl] at e2
      obtain ⟨_, j, hr⟩ := resolve_fwd hi hsl (get_fwd hi hsl n) _ _ _ _ _ hh e2
      exact ⟨(hRL hp).mp (hx j _ hr), d, (hRL (fun c hc => hp c (List.dropLast_subset _ hc))).mp ⟨k, hd⟩, hl⟩
  · rintro ⟨hv, hle, d, hd, hl⟩
    obtain ⟨hp, _⟩ := valid_comps hv
    obtain ⟨k, hr⟩ := (hRL hp).mpr hle
    obtain ⟨k', hr'⟩ := (hRL (fun c hc => hp c (List.dropLast_subset _ hc))).mpr hd
    have hfo := follow_bwd (cr := false) hi hsl
    have key : ∃ n0, S.has l ∧ (∃ k2, R S k2 l [] p) ∧ ∀ n, n0 ≤ n → fsGet (n + 1) S [] name false false = some (.ok (S, l)) := by
      by_cases hn : comps name = []
      · rw [hn] at hd hl hr
        cases hd
        subst hl
        exact ⟨0, hi.root, ⟨k, hr⟩, fun n _ => by rw [hfs hv, if_pos hn]; rfl⟩
      · obtain ⟨n0, r, k2, w1, w2, w3, w4⟩ := walk_bwd hi _ k (fun k' _ => hfo k') [] p hn hp hi.root hr
        obtain ⟨d', k3, h5, h6⟩ := walk_lnk (get_fwd hi hsl n0) _ _ _ _ hn hp hi.root (w4 n0 (Nat.le_refl _)).2
        obtain ⟨_, rfl⟩ := h5.unique hr'
        rw [← hl] at h6
        subst h6
        exact ⟨n0, w1, ⟨k2, w3⟩, fun n hn' => by rw [hfs hv, if_neg hn]; exact (w4 (n + 1) (by omega)).2⟩
    obtain ⟨n0, h1, ⟨k2, h2⟩, h3⟩ := key
    obtain ⟨n1, h4⟩ := hfo k2 l p h1 h2
    refine ⟨n0 + n1 + 1, ?_⟩
    unfold openFile
    rw [if_neg (by simp [hv]), h3 (n0 + n1) (by omega), bind_some_ok]
    have h5 : get (n0 + n1 + 1) S l ".".toList false true = some (.ok (S, p)) := by
      have : Gc false (n0 + n1 + 1) S l ".".toList true = _ := get_dot
      rw [if_pos rfl, (h4 (n0 + n1) (by omega)).2 (n0 + n1) (by omega) [] (by simp)] at this
      exact this
    simp only
    rw [h5, bind_some_ok]

/-! ### a case, and the cases in which the code differs -/

/-- what `Load` builds -/
def loaded (layers : List (List Entry)) : FS := match loadLayers 9 layers false with
  | some (.ok S) => S
  | _ => []

/-- `Straight` from a check of each file -/
theorem straight_of {S : FS} (h : ∀ e ∈ S, ∀ t ∈ e.2.link, e.1 ≠ [] ∧ t ≠ [] ∧ "..".toList ∉ (comps t).dropWhile (· = "..".toList) ∧
    (isRooted t = true → (comps t).dropWhile (· = "..".toList) ≠ [])) : Straight S.get? := by
  intro f nd t hf ht
  have hm : (f, nd) ∈ S := by
    unfold FS.get? at hf
    obtain ⟨e, h1, h2⟩ := Option.map_eq_some_iff.mp hf
    have h3 := List.find?_some h1
    have h4 := List.mem_of_find?_eq_some h1
    simp only [decide_eq_true_eq] at h3
    obtain ⟨e1, e2⟩ := e
    simp only at h2 h3
    rw [← h2, ← h3]; exact h4
  obtain ⟨h1, h2, h3, h4⟩ := h _ hm t (linkTo_iff.mp ht)
  refine ⟨h1, h2, ((comps t).takeWhile (· = "..".toList)).length, _, ?_, h3, fun hr => h4 (rooted_iff.mp hr)⟩
  rw [← List.eq_replicate_of_mem (a := "..".toList) (l := (comps t).takeWhile (· = "..".toList))]
  · exact List.takeWhile_append_dropWhile.symm
  · intro b hb
    have := List.all_eq_true.mp (List.all_takeWhile (l := comps t) (p := fun x => decide (x = "..".toList))) b hb
    simpa using this

def exFollow : List (List Entry) :=
  [[exDir "usr/", exDir "usr/lib/", exFile "usr/lib/f" [1], exLink "usr/lib/g" "../../lib/f", exLink "h" "/lib/g"], [exLink "lib" "./usr//lib/"]]

/-- a case: a chain of links, relative and absolute, to files and to directories in the middle of targets -/
example : loadLayers 9 exFollow false = some (.ok (loaded exFollow)) ∧ Straight (loaded exFollow).get? :=
  ⟨by decide +kernel, straight_of (by decide +kernel)⟩

example : openFile 12 (loaded exFollow) "h".toList = some (.ok (["usr".toList, "lib".toList, "f".toList], ["h".toList])) := by decide +kernel

example : Leads (loaded exFollow).get? [] (comps "lib/g".toList) ["usr".toList, "lib".toList, "f".toList] :=
  ((C98_open_partial 9 exFollow false (loaded exFollow) (by decide +kernel) (straight_of (by decide +kernel)) "lib/g".toList _
    ["usr".toList, "lib".toList, "g".toList]).mp ⟨12, by decide +kernel⟩).2.1

/-- `..` behind a symlink: the target is cleaned by its text, so the link in front of `..` is not followed -/
def exBehind : List (List Entry) := [[exDir "d/", exDir "d/e/", exFile "d/x" [1], exFile "x" [2], exLink "s" "d/e", exLink "t" "s/../x"]]

/-- C98 fails for symlinks with `..` behind a name: "t" is the link "s/../x" with "s" a link to "d/e", so that the
operating system opens "d/x"; the code opens "x" -/
theorem C98_violated (n : Nat) (hn : 9 ≤ n) : ∃ S, loadLayers n exBehind false = some (.ok S) ∧
    Leads S.get? [] (comps "t".toList) ["d".toList, "x".toList] ∧ openFile n S "t".toList = some (.ok (["x".toList], ["t".toList])) := by
  refine ⟨loaded exBehind, load_mono hn (by decide +kernel), ?_, open_mono hn (by decide +kernel)⟩
  have e0 : comps "t".toList = ["t".toList] := by decide +kernel
  have e1 : comps "s/../x".toList ++ [] = ["s".toList, "..".toList, "x".toList] := by decide +kernel
  have e2 : comps "d/e".toList ++ ["..".toList, "x".toList] = ["d".toList, "e".toList, "..".toList, "x".toList] := by decide +kernel
  have nolink : ∀ {nd : Node}, nd.link = none → ∀ t, ¬ LinkTo nd t := fun h t ht => by rw [linkTo_iff.mp ht] at h; cases h
  rw [e0]
  refine .link (nd := ⟨some (exLink "t" "s/../x").header, []⟩) (by decide) (by decide +kernel) ⟨_, rfl, rfl, rfl⟩ (by decide) ?_
  rw [if_neg (by decide), show comps (exLink "t" "s/../x").header.linkname ++ [] = _ from e1]
  refine .link (nd := ⟨some (exLink "s" "d/e").header, []⟩) (by decide) (by decide +kernel) ⟨_, rfl, rfl, rfl⟩ (by decide) ?_
  rw [if_neg (by decide), show comps (exLink "s" "d/e").header.linkname ++ _ = _ from e2]
  refine .step (nd := ⟨some (exDir "d").header, []⟩) (by decide) (by decide +kernel) (nolink (by decide)) (fun _ => isDir_iff.mpr (by decide)) ?_
  refine .step (nd := ⟨some (exDir "d/e").header, []⟩) (by decide) (by decide +kernel) (nolink (by decide)) (fun _ => isDir_iff.mpr (by decide)) ?_
  refine .up ?_
  exact .step (nd := ⟨some (exFile "d/x" [1]).header, [1]⟩) (by decide) (by decide +kernel) (nolink (by decide)) (fun h => absurd rfl h) .here

/-- C98 fails for a symlink to "/": opening it is an error, whereas the operating system opens the root directory -/
theorem C98_violated_root (n : Nat) (hn : 9 ≤ n) : ∃ S, loadLayers n [[exLink "r" "/"]] false = some (.ok S) ∧
    Leads S.get? [] (comps "r".toList) [] ∧ openFile n S "r".toList = some (.error ()) := by
  refine ⟨loaded [[exLink "r" "/"]], load_mono hn (by decide +kernel), ?_, open_mono hn (by decide +kernel)⟩
  rw [show comps "r".toList = ["r".toList] by decide +kernel]
  refine .link (nd := ⟨some (exLink "r" "/").header, []⟩) (by decide) (by decide +kernel) ⟨_, rfl, rfl, rfl⟩ (by decide) ?_
  rw [if_pos (by decide), show comps (exLink "r" "/").header.linkname ++ [] = [] by decide +kernel]
  exact .here

end Squash
