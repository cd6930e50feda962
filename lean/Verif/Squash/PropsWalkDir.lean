import Verif.Squash.WalkDir
import Verif.Squash.PropsReadDir
import Verif.Squash.PropsView
/-! C125: walking over a loaded file system. -/
namespace Squash.Walk
open Go Spec

/-- What walking over a file system from `q` on should do: visit everything at and below `q` but whiteout markers and what is below them, each
once, directories before what they hold and otherwise in the order of the names, with no error; and tell the last element of the name
and whether it is a directory. -/
structure Spec.Walked (S : FS) (q : Path) (vs : List Visit) : Prop where
  order : vs.Pairwise (fun a b => comps a.name < comps b.name)
  all : ∀ r, (∃ v ∈ vs, comps v.name = r) ↔ q <+: r ∧ (S.get? r).isSome = true ∧ Visible r
  told : ∀ v ∈ vs, validPath v.name = true ∧ v.failed = false ∧
    ∃ nd x, S.get? (comps v.name) = some nd ∧ v.ent = some (x, !nd.nonDir) ∧ ∀ c, (comps v.name).getLast? = some c → x = c

theorem validPath_render {q : Path} (h : ∀ c ∈ q, Plain c) : validPath (render false q) = true := by
  unfold validPath
  by_cases hq : q = []
  · rw [hq]; rfl
  · rw [split_render (fun c hc => (h c hc).2.2.2)]
    simp only [Bool.false_eq_true, if_false, if_neg hq]
    rw [Bool.or_eq_true]
    right
    rw [List.all_eq_true]
    intro c hc
    simpa using ⟨⟨(h c hc).1, (h c hc).2.1⟩, (h c hc).2.2.1⟩

theorem each_eq {f : Str × Bool → Option (List Visit)} {g : Str × Bool → List Visit} : ∀ (es : List (Str × Bool)), (∀ e ∈ es, f e = some (g e)) →
    each f es = some (es.flatMap g)
  | [], _ => rfl
  | e :: es, h => by
    rw [each, h e (by simp), each_eq es (fun x hx => h x (by simp [hx]))]
    rfl

theorem append_lt_of_lt {p : Path} {c d : Str} (h : c < d) (s t : Path) : p ++ [c] ++ s < p ++ [d] ++ t := by
  induction p with
  | nil => exact List.cons_lt_cons_iff.mpr (.inl h)
  | cons a p ih => exact List.cons_lt_cons_iff.mpr (.inr ⟨rfl, ih⟩)

theorem lt_append {p s : Path} (h : s ≠ []) : p < p ++ s := by
  induction p with
  | nil =>
    cases s with
    | nil => exact absurd rfl h
    | cons c s => exact List.nil_lt_cons c s
  | cons a p ih => exact List.cons_lt_cons_iff.mpr (.inr ⟨rfl, ih⟩)

theorem prefix_cases {q r : Path} (h : q <+: r) : r = q ∨ ∃ c, q ++ [c] <+: r := by
  obtain ⟨t, rfl⟩ := h
  cases t with
  | nil => exact .inl (by simp)
  | cons c t => exact .inr ⟨c, t, by simp⟩

theorem has_prefix {b : Bool} {S : FS} (hi : Inv b S) {q r : Path} (h : q <+: r) (hr : S.has r) : S.has q := by
  obtain ⟨t, rfl⟩ := h
  exact hi.prefix hr

theorem visible_prefix {q r : Path} (h : q <+: r) (hr : Visible r) : Visible q := fun c hc => hr c (h.subset hc)

/-- sorting a listing once more -/
theorem sort_again {S : FS} {p : Path} {L : List DirEnt} (hg : GoodListing S p L) {srt : (DirEnt → DirEnt → Bool) → List DirEnt → List DirEnt}
    (hs : SortSlice srt) : srt (fun a b => decide (a.name < b.name)) L = L := by
  have hinj : ∀ a ∈ L, ∀ b ∈ L, a.name = b.name → a = b := by
    intro a ha b hb e
    have h1 := hg.missing a ha
    have h2 := hg.missing b hb
    rw [e, ← h2] at h1
    obtain ⟨n1, m1⟩ := a
    obtain ⟨n2, m2⟩ := b
    simp only at e h1
    rw [e]
    cases m1 <;> cases m2 <;> simp_all
  refine List.Perm.eq_of_pairwise (le := fun a b => decide (b.name < a.name) = false) ?_ (hs.sorted _ _ (nameLess_strict L hinj)) ?_ (hs.perm _ L)
  · intro a b ha hb h1 h2
    simp only [decide_eq_false_iff_not] at h1 h2
    exact hinj a ((hs.perm _ L).mem_iff.mp ha) b hb (List.le_antisymm h1 h2)
  · have := hg.sorted
    rw [List.pairwise_map] at this
    exact this.imp (fun {a b} h => by simpa using List.le_of_lt h)

section
variable {S : FS} {n : Nat} {srt : (DirEnt → DirEnt → Bool) → List DirEnt → List DirEnt} {order : Path → List Str → List Str}

theorem readDir_good (hi : Inv true S) (hs : SortSlice srt) (ho : PermOrder order) {q : Path} {nd : Node} (hq : S.get? q = some nd)
    (hp : ∀ c ∈ q, Plain c) (hlk : ∀ t, t <+: q → S.link t = none) (hd : nd.nonDir = false)
    (hf : ∀ c, S.has (q ++ [c]) → ¬ isMarker c → ∃ y, get (n + 2) S (q ++ [c]) ".".toList false true = some (.ok y)) :
    ∃ L, GoodListing S q L ∧ readDir (n + 2) srt order S (render false q) = some (.ok (L.map fun d => (d.name, entIsDir S q d))) := by
  obtain ⟨l, L, e1, e2, hg⟩ := listing_good hi hs (order := order q) (fun _ => ho _ _) hf
  refine ⟨L, hg, ?_⟩
  have hc := comps_render hp
  have hlq : nd.link = none := by
    have := hlk q (List.prefix_refl _)
    unfold FS.link at this
    rw [hq] at this
    exact this
  have hop := (open_exact (n := n) hi (validPath_render hp) (by rw [hc]; intro t h1 _; exact hlk t h1)).1 nd (by rw [hc]; exact hq) hlq
  rw [hc] at hop
  unfold readDir
  rw [hop, bind_some_ok]
  simp only [hq]
  have hst : Listing srt (kidsOf (n + 2) (order q) S q) L (freshReader nd) := ⟨hd, rfl, .inr ⟨rfl, l, e1, e2⟩, Nat.zero_le _⟩
  rw [readDir_eq hst, readDirTail_eq (by exact hst.pos), if_neg (by omega)]
  simp only [freshReader, List.drop_zero, sort_again hg hs]

theorem links_none (hi : Inv true S) {q : Path} {nd : Node} (hq : S.get? q = some nd) (hd : nd.nonDir = false) : ∀ t, t <+: q → S.link t = none := by
  have hno : ∀ t, S.nonDir t = false → S.link t = none := by
    intro t h
    unfold FS.nonDir at h
    unfold FS.link
    cases hg : S.get? t with
    | none => rfl
    | some x =>
      rw [hg] at h
      simp only at h ⊢
      unfold Node.nonDir at h
      unfold Node.link
      cases hx : x.header with
      | none => rfl
      | some y =>
        rw [hx] at h
        simp only [ne_eq, decide_eq_false_iff_not, Decidable.not_not] at h
        simp only [h]
        rfl
  intro t ht
  refine hno t ?_
  rcases prefix_cases ht with e | ⟨c, hc⟩
  · unfold FS.nonDir
    rw [← e, hq]; exact hd
  · cases h : S.nonDir t with
    | false => rfl
    | true =>
      have := hi.leaf t h c
      exact absurd (has_prefix hi hc (has_of hq)) (not_has.mpr this)

theorem walkDir_under (hi : Inv true S) (hs : SortSlice srt) (ho : PermOrder order)
    (hm : ∀ p nd h, S.get? p = some nd → nd.header = some h → hdrIsDir h = true → h.typeflag = '5')
    (hf : ∀ p, S.has p → Visible p → ∃ y, get (n + 2) S p ".".toList false true = some (.ok y)) :
    ∀ (k : Nat) (q : Path) (nd : Node) (x : Str), S.get? q = some nd → Visible q → depth S ≤ k + q.length →
      (∀ c, q.getLast? = some c → x = c) →
      ∃ vs, walkDir (n + 2) srt order S k (render false q) (x, !nd.nonDir) = some vs ∧ Spec.Walked S q vs
  | 0, q, nd, _, hq, _, hk, _ => absurd (lt_depth (has_of hq)) (by omega)
  | k + 1, q, nd, x, hq, hv, hk, hx => by
    have hp : ∀ c ∈ q, Plain c := fun c hc => ((hi.keys q (has_of hq) c hc).1).plain ((hi.keys q (has_of hq) c hc).2 rfl)
    have hc := comps_render hp
    have hroot : ∀ r, (∃ v ∈ [(⟨render false q, some (x, !nd.nonDir), false⟩ : Visit)], comps v.name = r) ↔ r = q := by
      intro r
      simp only [List.mem_singleton, exists_eq_left, hc]
      exact eq_comm
    have hself : validPath (render false q) = true ∧ false = false ∧
        ∃ nd' y, S.get? (comps (render false q)) = some nd' ∧
          some (x, !nd.nonDir) = some (y, !nd'.nonDir) ∧ ∀ c, (comps (render false q)).getLast? = some c → y = c :=
      ⟨validPath_render hp, rfl, nd, x, by rw [hc]; exact hq, rfl, by rw [hc]; exact hx⟩
    cases hd : nd.nonDir with
    | true =>
      refine ⟨[⟨render false q, some (x, !nd.nonDir), false⟩], by rw [hd]; rfl, ?_, ?_, ?_⟩
      · exact List.pairwise_singleton _ _
      · intro r
        rw [hroot]
        constructor
        · rintro rfl; exact ⟨List.prefix_refl _, has_of hq, hv⟩
        · rintro ⟨h1, h2, _⟩
          rcases prefix_cases h1 with e | ⟨c, h3⟩
          · exact e
          · have := hi.leaf q (by unfold FS.nonDir; rw [hq]; exact hd) c
            exact absurd (has_prefix hi h3 h2) (not_has.mpr this)
      · intro v hv'
        rw [List.mem_singleton.mp hv']
        exact hself
    | false =>
      obtain ⟨L, hg, hr⟩ := readDir_good (srt := srt) (order := order) (n := n) hi hs ho hq hp (links_none hi hq hd) hd (by
        intro c h1 h2
        exact hf _ h1 (by
          intro y hy
          rcases List.mem_append.mp hy with hy | hy
          · exact hv y hy
          · rw [List.mem_singleton.mp hy]; exact h2))
      -- the children
      have hkid : ∀ d ∈ L, S.has (q ++ [d.name]) ∧ ¬ isMarker d.name := fun d hd' => (hg.mem d.name).mp (List.mem_map_of_mem hd')
      have hvk : ∀ d ∈ L, Visible (q ++ [d.name]) := by
        intro d hd' x hx
        rcases List.mem_append.mp hx with hx | hx
        · exact hv x hx
        · rw [List.mem_singleton.mp hx]; exact (hkid d hd').2
      have hsub : ∀ d ∈ L, ∃ vs, walkDir (n + 2) srt order S k (pathJoin [render false q, d.name]) (d.name, entIsDir S q d) = some vs ∧
          Spec.Walked S (q ++ [d.name]) vs := by
        intro d hd'
        obtain ⟨h1, h2⟩ := hkid d hd'
        obtain ⟨nk, hnk⟩ := Option.isSome_iff_exists.mp h1
        have hpk := hi.keys _ h1 d.name (by simp)
        have ej : pathJoin [render false q, d.name] = render false (q ++ [d.name]) := by
          rw [pathJoin_plain (render_ne_nil hp) (hpk.1.plain (hpk.2 rfl)), isRooted_render_plain hp, elems_render (plains_clean hp false)]
        have ed : entIsDir S q d = !nk.nonDir := by
          have hmiss := hg.missing d hd'
          unfold entIsDir
          obtain ⟨hd0, bd⟩ := nk
          cases hd0 with
          | none => rw [hmiss.mpr ⟨bd, hnk⟩]; rfl
          | some h =>
            have : d.missing = false := by
              cases hx : d.missing with
              | false => rfl
              | true =>
                obtain ⟨b', hb'⟩ := hmiss.mp hx
                rw [hnk] at hb'; simp at hb'
            rw [this, hnk]
            simp only [Bool.false_eq_true, if_false, Node.nonDir]
            by_cases ht : h.typeflag = typeDir
            · simp [hdrIsDir, ht]
            · cases hx : hdrIsDir h with
              | true => exact absurd (hm _ _ h hnk rfl hx) ht
              | false => simp [ht]
        have := walkDir_under hi hs ho hm hf k (q ++ [d.name]) nk d.name hnk (hvk d hd') (by simp; omega) (by simp)
        rw [← ed, ← ej] at this
        exact this
      have hsub' : ∀ e ∈ L.map (fun d => (d.name, entIsDir S q d)), ∃ vs,
          walkDir (n + 2) srt order S k (pathJoin [render false q, e.1]) e = some vs ∧ Spec.Walked S (q ++ [e.1]) vs := by
        intro e he
        obtain ⟨d, hd', rfl⟩ := List.mem_map.mp he
        exact hsub d hd'
      have hg' : ∃ g : Str × Bool → List Visit, ∀ e ∈ L.map (fun d => (d.name, entIsDir S q d)),
          walkDir (n + 2) srt order S k (pathJoin [render false q, e.1]) e = some (g e) ∧ Spec.Walked S (q ++ [e.1]) (g e) := by
        refine ⟨fun e => if he : e ∈ L.map (fun d => (d.name, entIsDir S q d)) then (hsub' e he).choose else [], ?_⟩
        intro e he
        simp only [dif_pos he]
        exact (hsub' e he).choose_spec
      obtain ⟨g, hgs⟩ := hg'
      have hW : walkDir (n + 2) srt order S (k + 1) (render false q) (x, !false) =
          some (⟨render false q, some (x, !false), false⟩ :: (L.map (fun d => (d.name, entIsDir S q d))).flatMap g) := by
        rw [walkDir]
        simp only [Bool.not_false, Bool.not_true, Bool.false_eq_true, if_false]
        rw [hr]
        simp only
        rw [each_eq _ (fun e he => (hgs e he).1)]
        rfl
      refine ⟨_, hW, ?_, ?_, ?_⟩
      · rw [List.pairwise_cons]
        constructor
        · intro v hv'
          obtain ⟨e, he, hve⟩ := List.mem_flatMap.mp hv'
          have := ((hgs e he).2.all (comps v.name)).mp ⟨v, hve, rfl⟩
          obtain ⟨⟨t, ht⟩, _, _⟩ := this
          rw [hc, ← ht, List.append_assoc]
          exact lt_append (by simp)
        · rw [List.pairwise_flatMap]
          refine ⟨fun e he => (hgs e he).2.order, ?_⟩
          have hso := hg.sorted
          rw [List.pairwise_map] at hso ⊢
          refine hso.imp_of_mem ?_
          intro a b ha hb hab x hx y hy
          obtain ⟨⟨t, ht⟩, _, _⟩ := ((hgs _ (List.mem_map_of_mem ha)).2.all (comps x.name)).mp ⟨x, hx, rfl⟩
          obtain ⟨⟨u, hu⟩, _, _⟩ := ((hgs _ (List.mem_map_of_mem hb)).2.all (comps y.name)).mp ⟨y, hy, rfl⟩
          rw [← ht, ← hu]
          exact append_lt_of_lt hab t u
      · intro r
        constructor
        · rintro ⟨v, hv', rfl⟩
          rcases List.mem_cons.mp hv' with e | hv'
          · rw [e, hc]
            exact ⟨List.prefix_refl _, has_of hq, hv⟩
          · obtain ⟨e, he, hve⟩ := List.mem_flatMap.mp hv'
            obtain ⟨h1, h2, h3⟩ := ((hgs e he).2.all (comps v.name)).mp ⟨v, hve, rfl⟩
            exact ⟨(List.prefix_append _ _).trans h1, h2, h3⟩
        · rintro ⟨h1, h2, h3⟩
          rcases prefix_cases h1 with e | ⟨c, h4⟩
          · exact ⟨_, List.mem_cons_self, by rw [e]; exact hc⟩
          · have h5 := has_prefix hi h4 h2
            have h6 := visible_prefix h4 h3 c (by simp)
            obtain ⟨d, hd', rfl⟩ := List.mem_map.mp ((hg.mem c).mpr ⟨h5, h6⟩)
            have he := List.mem_map_of_mem (f := fun d => (d.name, entIsDir S q d)) hd'
            obtain ⟨v, hve, e⟩ := ((hgs _ he).2.all r).mpr ⟨h4, h2, h3⟩
            exact ⟨v, List.mem_cons_of_mem _ (List.mem_flatMap.mpr ⟨_, he, hve⟩), e⟩
      · intro v hv'
        rcases List.mem_cons.mp hv' with e | hv'
        · rw [e]
          rw [hd] at hself
          exact hself
        · obtain ⟨e, he, hve⟩ := List.mem_flatMap.mp hv'
          exact (hgs e he).2.told v hve
end

/-- no parent of a node is a symlink -/
theorem parents_nolink {S : FS} (hi : Inv true S) {q : Path} {nd : Node} (hq : S.get? q = some nd) :
    ∀ t, t <+: comps (render false q) → t ≠ comps (render false q) → S.link t = none := by
  have hp : ∀ c ∈ q, Plain c := fun c hc => ((hi.keys q (has_of hq) c hc).1).plain ((hi.keys q (has_of hq) c hc).2 rfl)
  have hc := comps_render hp
  rw [hc]
  intro t h1 h2
  rcases prefix_cases h1 with e | ⟨c, h3⟩
  · exact absurd e.symm h2
  · have hh := has_prefix hi (List.prefix_append t [c]) (has_prefix hi h3 (has_of hq))
    obtain ⟨x, hx⟩ := Option.isSome_iff_exists.mp hh
    have hd : x.nonDir = false := by
      cases hy : x.nonDir with
      | false => rfl
      | true =>
        have := hi.leaf t (by unfold FS.nonDir; rw [hx]; exact hy) c
        exact absurd (has_prefix hi h3 (has_of hq)) (not_has.mpr this)
    exact links_none hi hx hd t (List.prefix_refl _)

/-- C125, for layers without a symlink to "/" (as in C64), and walks that begin at a file or directory `q` that has an entry in the layers and
is not a symlink; if all links at and below it can be followed, and the modes do not say "directory" where the type does not.  Then
`WalkDir` returns, and does what it should.  Otherwise not: see `C125_violated_root` and `C125_violated_dangling`. -/
theorem C125_walk_partial (fuel : Nat) (oc : Bool) (layers : List (List Entry)) (S : FS) (hroot : ∀ l ∈ layers, NoRootLink l)
    (hload : loadLayers fuel layers oc = some (.ok S)) (srt : (DirEnt → DirEnt → Bool) → List DirEnt → List DirEnt) (hs : SortSlice srt)
    (q : Path) (h : Header) (body : Bytes) (hq : S.get? q = some ⟨some h, body⟩) (hv : Visible q) (hl : h.typeflag ≠ '2')
    (n : Nat) (hn : 2 ≤ n)
    (hm : ∀ p nd h, S.get? p = some nd → nd.header = some h → hdrIsDir h = true → h.typeflag = '5')
    (hf : ∀ p, (S.get? p).isSome = true → Visible p → ∃ y, get n S p ".".toList false true = some (.ok y)) :
    ∃ k0, ∀ k, k0 ≤ k → ∀ order, PermOrder order → ∃ vs, walk k n srt order S (render false q) = some vs ∧ Spec.Walked S q vs := by
  have hi : Inv true S := load_inv (fun _ => hroot) hload
  obtain ⟨m, rfl⟩ : ∃ m, n = m + 2 := ⟨n - 2, by omega⟩
  refine ⟨depth S, ?_⟩
  intro k hk order ho
  have hp : ∀ c ∈ q, Plain c := fun c hc => ((hi.keys q (has_of hq) c hc).1).plain ((hi.keys q (has_of hq) c hc).2 rfl)
  have hc := comps_render hp
  have hlk := parents_nolink hi hq
  have hop := (open_exact (n := m) hi (validPath_render hp) hlk).1 ⟨some h, body⟩ (by rw [hc]; exact hq) (by
    unfold Node.link
    simp only
    rw [if_neg (show h.typeflag ≠ typeSymlink from hl)])
  rw [hc] at hop
  have hdir : hdrIsDir h = !(Node.nonDir ⟨some h, body⟩) := by
    by_cases ht : h.typeflag = typeDir
    · simp [hdrIsDir, Node.nonDir, ht]
    · cases hx : hdrIsDir h with
      | true => exact absurd (hm _ _ h hq rfl hx) ht
      | false => simp [Node.nonDir, ht]
  obtain ⟨vs, h1, h2⟩ := walkDir_under hi hs ho hm hf k q _ (pathBase h.name) hq hv (by omega) (by
    intro c hc'
    rw [List.getLast?_eq_some_iff] at hc'
    obtain ⟨t, rfl⟩ := hc'
    rcases hi.base t c _ h hq rfl with e | e
    · exact absurd ((hasPrefix_iff).mp e) (hv c (by simp))
    · exact e)
  refine ⟨vs, ?_, h2⟩
  unfold walk stat
  rw [hop, bind_some_ok]
  simp only [hq]
  rw [show hdrIsDir { h with name := h.name } = hdrIsDir h from rfl, hdir]
  exact h1

/-- C125, for walks that begin at a symlink `q` (below "." there is no other difference): if it leads to `t`, the first call is for the
symlink, under its own name, and says whether `t` is a directory; if it is none, there is no other call. -/
theorem C125_link (fuel : Nat) (oc : Bool) (layers : List (List Entry)) (S : FS) (hroot : ∀ l ∈ layers, NoRootLink l)
    (hload : loadLayers fuel layers oc = some (.ok S)) (srt : (DirEnt → DirEnt → Bool) → List DirEnt → List DirEnt)
    (q : Path) (c : Str) (l : Header) (body : Bytes) (hq : S.get? (q ++ [c]) = some ⟨some l, body⟩) (hv : Visible (q ++ [c]))
    (n : Nat) (hn : 2 ≤ n) (S' : FS) (t : Path) (h : Header) (body' : Bytes)
    (hg : get n S (q ++ [c]) ".".toList false true = some (.ok (S', t))) (ht : S.get? t = some ⟨some h, body'⟩)
    (order : Path → List Str → List Str) (k : Nat) (vs : List Visit) (hw : walk k n srt order S (render false (q ++ [c])) = some vs) :
    ∃ rest, vs = ⟨render false (q ++ [c]), some (c, hdrIsDir h), false⟩ :: rest ∧ (hdrIsDir h = false → rest = []) := by
  have hi : Inv true S := load_inv (fun _ => hroot) hload
  obtain ⟨m, rfl⟩ : ∃ m, n = m + 2 := ⟨n - 2, by omega⟩
  have hp : ∀ x ∈ q ++ [c], Plain x := fun x hx => ((hi.keys _ (has_of hq) x hx).1).plain ((hi.keys _ (has_of hq) x hx).2 rfl)
  have hc := comps_render hp
  have hfs := fsGet_find (n := m) hi (validPath_render hp) (parents_nolink hi hq)
  rw [hc, if_pos (has_of hq)] at hfs
  have hop : openFile (m + 2) S (render false (q ++ [c])) = some (.ok (t, q ++ [c])) := by
    unfold openFile
    rw [validPath_render hp]
    simp only [Bool.not_true, Bool.false_eq_true, if_false]
    rw [hfs, bind_some_ok, hg, bind_some_ok]
  have hb : pathBase l.name = c := by
    rcases hi.base q c _ l hq rfl with e | e
    · exact absurd ((hasPrefix_iff).mp e) (hv c (by simp))
    · exact e
  unfold walk stat at hw
  rw [hop, bind_some_ok] at hw
  simp only [ht, hq] at hw
  rw [show hdrIsDir { h with name := l.name } = hdrIsDir h from rfl, hb] at hw
  cases k with
  | zero => cases hw
  | succ k =>
    rw [walkDir] at hw
    cases hd : hdrIsDir h with
    | false =>
      rw [hd] at hw
      simp only [Bool.not_false, if_true, Option.some.injEq] at hw
      exact ⟨[], hw.symm, fun _ => rfl⟩
    | true =>
      rw [hd] at hw
      simp only [Bool.not_true, Bool.false_eq_true, if_false] at hw
      split at hw
      · cases hw
      · injection hw with hw
        exact ⟨_, hw.symm, fun e => (nomatch e)⟩
      · rw [Option.map_eq_some_iff] at hw
        obtain ⟨rest, _, rfl⟩ := hw
        exact ⟨rest, rfl, fun e => (nomatch e)⟩

/-- The code violates C125: if no layer has an entry for the root, as is usual, then walking from "." on ends at once with an error. -/
theorem C125_violated_root (fuel : Nat) (oc : Bool) (layers : List (List Entry)) (S : FS)
    (hload : loadLayers fuel layers oc = some (.ok S)) (hno : ∀ h body, S.get? [] ≠ some ⟨some h, body⟩) (n : Nat) (hn : 2 ≤ n) (k : Nat)
    (srt : (DirEnt → DirEnt → Bool) → List DirEnt → List DirEnt) (order : Path → List Str → List Str) :
    walk k n srt order S ".".toList = some [⟨".".toList, none, true⟩] := by
  have hi : Inv false S := load_inv (by simp) hload
  obtain ⟨m, rfl⟩ : ∃ m, n = m + 2 := ⟨n - 2, by omega⟩
  obtain ⟨⟨hd, body⟩, hr⟩ := Option.isSome_iff_exists.mp hi.root
  cases hd with
  | some h => exact absurd hr (hno h body)
  | none =>
    have e : comps ".".toList = [] := by decide
    have hop := (open_exact (n := m) hi (name := ".".toList) (by decide) (by rw [e]; intro t h1 h2; exact absurd (List.prefix_nil.mp h1) h2)).1
      ⟨none, body⟩ (by rw [e]; exact hr) rfl
    unfold walk stat
    rw [hop, bind_some_ok, e]
    simp only [hr]

/-- the root, a directory with a file and a symlink to it, and a file -/
def exWalk : List (List Entry) := [[exDir "./", exFile "d/b" [1], exLink "d/a" "b", exFile "c" [2]], [exFile "d/.wh.x" []]]

example : ∃ S, loadLayers 9 exWalk false = some (.ok S) ∧ S.get? [] = some ⟨some (exDir ".").header, []⟩ ∧
    (S.all fun e => match get 9 S e.1 ".".toList false true with | some (.ok _) => true | _ => false) = true ∧
    (S.all fun e => match e.2.header with | some h => !hdrIsDir h || decide (h.typeflag = '5') | none => true) = true ∧
    walk 5 9 insertionSort (fun _ => id) S ".".toList = some [⟨".".toList, some (".".toList, true), false⟩, ⟨"c".toList, some ("c".toList, false), false⟩,
      ⟨"d".toList, some ("d".toList, true), false⟩, ⟨"d/a".toList, some ("a".toList, false), false⟩, ⟨"d/b".toList, some ("b".toList, false), false⟩] :=
  ⟨_, rfl, by decide +kernel, by decide +kernel, by decide +kernel, by decide +kernel⟩

/-- a walk from a symlink to a directory -/
example : ∃ S S', loadLayers 9 [[exDir "./", exFile "d/a" [1], exDir "d/", exLink "l" "d"]] false = some (.ok S) ∧
    get 9 S ["l".toList] ".".toList false true = some (.ok (S', ["d".toList])) ∧
    S.get? ["d".toList] = some ⟨some (exDir "d").header, []⟩ ∧
    walk 5 9 insertionSort (fun _ => id) S "l".toList = some [⟨"l".toList, some ("l".toList, true), false⟩,
      ⟨"l/a".toList, some ("a".toList, false), false⟩] :=
  ⟨_, _, rfl, rfl, by decide +kernel, by decide +kernel⟩

/-- layers without an entry for the root -/
example : ∃ S, loadLayers 9 [[exFile "d/b" [1]]] false = some (.ok S) ∧ S.get? [] = some ⟨none, []⟩ := ⟨_, rfl, rfl⟩

theorem listLoop_fails : ∀ (kids : List (Str × Option Str × Bool)) (acc : List DirEnt) (k : Str × Option Str × Bool), k ∈ kids →
    hasPrefix k.1 whPrefix = false → k.2.2 = false → (listLoop kids acc).2 = false
  | (key, base, follows) :: rest, acc, k, hk, hw, hn => by
    rw [listLoop.eq_def]
    simp only
    rcases List.mem_cons.mp hk with e | hk
    · subst e
      simp only at hw hn
      rw [hw, hn]
      rfl
    · split
      · exact listLoop_fails rest acc k hk hw hn
      · split
        · rfl
        · exact listLoop_fails rest _ k hk hw hn

/-- The code violates C125: if the root has an entry in the layers, and has a symlink in it that leads to nothing, or in a circle, then nothing
but the root is visited. -/
theorem C125_violated_dangling (fuel : Nat) (oc : Bool) (layers : List (List Entry)) (S : FS)
    (hload : loadLayers fuel layers oc = some (.ok S)) (h : Header) (body : Bytes) (hr : S.get? [] = some ⟨some h, body⟩) (hd : h.typeflag = '5')
    (n : Nat) (hn : 2 ≤ n) (c : Str) (hc : (S.get? [c]).isSome = true) (hv : ¬ isMarker c)
    (hl : get n S [c] ".".toList false true = some (.error ())) (k : Nat)
    (srt : (DirEnt → DirEnt → Bool) → List DirEnt → List DirEnt) (order : Path → List Str → List Str) (ho : PermOrder order) :
    walk (k + 1) n srt order S ".".toList =
      some [⟨".".toList, some (pathBase h.name, true), false⟩, ⟨".".toList, some (pathBase h.name, true), true⟩] := by
  have hi : Inv false S := load_inv (by simp) hload
  obtain ⟨m, rfl⟩ : ∃ m, n = m + 2 := ⟨n - 2, by omega⟩
  have e : comps ".".toList = [] := by decide
  have hop := (open_exact (n := m) hi (name := ".".toList) (by decide) (by rw [e]; intro t h1 h2; exact absurd (List.prefix_nil.mp h1) h2)).1
    ⟨some h, body⟩ (by rw [e]; exact hr) (by
      unfold Node.link
      simp only
      rw [hd]; rfl)
  rw [e] at hop
  have hdir : hdrIsDir h = true := by unfold hdrIsDir; rw [hd]; rfl
  have hfail : (listLoop (kidsOf (m + 2) (order []) S []) []).2 = false := by
    unfold kidsOf
    refine listLoop_fails _ _ _ (List.mem_map.mpr ⟨c, (ho _ _).mem_iff.mpr (mem_childNames.mpr hc), rfl⟩) ?_ ?_
    · simp only
      rw [← Bool.not_eq_true, hasPrefix_iff]; exact hv
    · simp only [List.nil_append, hl]
  have hrd : readDir (m + 2) srt order S ".".toList = some (.error ()) := by
    unfold readDir
    rw [hop, bind_some_ok]
    simp only [hr]
    have : ((freshReader ⟨some h, body⟩).readDir srt (kidsOf (m + 2) (order []) S []) (-1)).2 = .error .other := by
      unfold Reader.readDir
      simp only [freshReader, Node.nonDir, hd, typeDir, ne_eq, not_true_eq_false, decide_false, Bool.false_eq_true, if_false]
      match hx : listLoop (kidsOf (m + 2) (order []) S []) [] with
      | (l, true) => rw [hx] at hfail; simp at hfail
      | (l, false) => rfl
    rw [this]
  unfold walk stat
  rw [hop, bind_some_ok]
  simp only [hr]
  rw [show hdrIsDir { h with name := h.name } = hdrIsDir h from rfl, hdir, walkDir, hrd]
  rfl

example : ∃ S, loadLayers 9 [[exDir "./", exFile "a" [], exLink "l" "nowhere"]] false = some (.ok S) ∧
    S.get? [] = some ⟨some (exDir ".").header, []⟩ ∧ (S.get? ["l".toList]).isSome = true ∧ (S.get? ["a".toList]).isSome = true ∧
    get 9 S ["l".toList] ".".toList false true = some (.error ()) :=
  ⟨_, rfl, by decide +kernel, by decide +kernel, by decide +kernel, rfl⟩

/-- The code violates C125: a file that is no directory, but whose mode has the bits of one, as some archivers write modes, is visited twice,
the second time with an error. -/
theorem C125_violated_mode (fuel : Nat) (oc : Bool) (layers : List (List Entry)) (S : FS) (hroot : ∀ l ∈ layers, NoRootLink l)
    (hload : loadLayers fuel layers oc = some (.ok S)) (q : Path) (h : Header) (body : Bytes) (hq : S.get? q = some ⟨some h, body⟩)
    (h0 : h.typeflag = '0') (hmode : (h.mode % 2 ^ 32) / 4096 = 4) (n : Nat) (hn : 2 ≤ n) (k : Nat)
    (srt : (DirEnt → DirEnt → Bool) → List DirEnt → List DirEnt) (order : Path → List Str → List Str) :
    walk (k + 1) n srt order S (render false q) =
      some [⟨render false q, some (pathBase h.name, true), false⟩, ⟨render false q, some (pathBase h.name, true), true⟩] := by
  have hi : Inv true S := load_inv (fun _ => hroot) hload
  obtain ⟨m, rfl⟩ : ∃ m, n = m + 2 := ⟨n - 2, by omega⟩
  have hp : ∀ c ∈ q, Plain c := fun c hc => ((hi.keys q (has_of hq) c hc).1).plain ((hi.keys q (has_of hq) c hc).2 rfl)
  have hc := comps_render hp
  have hop := (open_exact (n := m) hi (validPath_render hp) (parents_nolink hi hq)).1 ⟨some h, body⟩ (by rw [hc]; exact hq) (by
    unfold Node.link
    simp only
    rw [h0]; rfl)
  rw [hc] at hop
  have hdir : hdrIsDir h = true := by unfold hdrIsDir; rw [hmode]; simp
  have hrd : readDir (m + 2) srt order S (render false q) = some (.error ()) := by
    unfold readDir
    rw [hop, bind_some_ok]
    simp only [hq]
    have : ((freshReader ⟨some h, body⟩).readDir srt (kidsOf (m + 2) (order q) S q) (-1)).2 = .error .notDir := by
      unfold Reader.readDir
      simp [freshReader, Node.nonDir, h0, typeDir]
    rw [this]
  unfold walk stat
  rw [hop, bind_some_ok]
  simp only [hq]
  rw [show hdrIsDir { h with name := h.name } = hdrIsDir h from rfl, hdir, walkDir, hrd]
  rfl

example : ∃ S h, loadLayers 9 [[exFile "a" []], [⟨{ (exFile "b" []).header with mode := 0o40755 }, []⟩]] false = some (.ok S) ∧
    S.get? ["b".toList] = some ⟨some h, []⟩ ∧ h.typeflag = '0' ∧ (h.mode % 2 ^ 32) / 4096 = 4 ∧
    ∀ l ∈ [[exFile "a" []], [⟨{ (exFile "b" []).header with mode := 0o40755 }, []⟩]], NoRootLink l :=
  ⟨_, { (exFile "b" []).header with mode := 0o40755 }, rfl, by decide +kernel, by decide +kernel, by decide +kernel, by
    intro l hl e he
    simp only [List.mem_cons, List.not_mem_nil, or_false] at hl
    rcases hl with rfl | rfl <;> (rw [List.mem_singleton.mp he]; decide)⟩

end Squash.Walk
