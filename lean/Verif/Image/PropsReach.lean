import Verif.Image.PropsComplete
/-! C119: a layer on top of an image leaves the image's files reachable. -/
namespace Onto
open Go Fsutil Bdist
open Python (Platform)
open Squash (Entry Node FS loadLayers openFile)
open Squash.Spec (isMarker Visible asDir Outside isFile LoadsTo LinksFine emptyView inOrder StraightTarget Leads LinkTo IsDir comps)

/-- Of the image the files of the layer replace only files that are no symlinks, by files, and directories, by directories. -/
def Spec.Fits (V : Squash.Spec.View) (es : List (Hdr × Bytes)) : Prop :=
  (∀ nd, V [] = some nd → IsDir nd) ∧
  ∀ e ∈ es, ∀ ps, Spec.Named e.1.name ps → ∀ nd, V ps = some nd →
    (e.1.typeflag = typeDir ↔ IsDir nd) ∧ e.1.typeflag ≠ typeSymlink ∧ ∀ t, ¬ LinkTo nd t

/-- what is at a path of the image after a layer has been put on it -/
theorem added_at {rest : Hdr → Str} {n : Nat} {S T : FS} {es : List (Hdr × Bytes)} (h : Spec.Tree es) (hp : Spec.ParentsFirst es)
    (ha : Spec.Added rest n S T es) {V : Squash.Spec.View} (hk : Squash.Kept False S V) (hfit : Spec.Fits V es) {q : List Str}
    (hv : Visible q) {nd : Node} (hnd : S.get? q = some nd) :
    T.get? q = some nd ∨ ∃ e ∈ es, Spec.Named e.1.name q ∧ T.get? q = some (Spec.node rest e) := by
  by_cases hq : ∃ e ∈ es, Spec.Named e.1.name q
  · obtain ⟨e, he, hn⟩ := hq
    exact .inr ⟨e, he, hn, ha.there e he q hn⟩
  · refine .inl ?_
    by_cases h0 : q = []
    · subst h0
      by_cases hes : ∃ e, e ∈ es
      · obtain ⟨e, he⟩ := hes
        obtain ⟨ps, hn⟩ := h.named e he
        rw [ha.above e he ps hn [] List.nil_prefix (fun e' he' hn' => hq ⟨e', he', hn'⟩), hnd]
        have hd := hfit.1 nd (by rw [← hk.view [] hv]; exact hnd)
        unfold asDir
        simp only
        split
        · rename_i hx
          obtain ⟨x, e1, e2⟩ := hx
          exact absurd (hd x e1) e2
        · rfl
      · rw [ha.other [] hv (fun e he => absurd ⟨e, he⟩ hes), hnd]
    · rw [ha.other q hv ?_, hnd]
      intro e he ps hn
      constructor
      · intro hpre
        obtain ⟨t, ht⟩ := hpre
        have ht0 : t ≠ [] := by rintro rfl; rw [List.append_nil] at ht; exact hq ⟨e, he, ht ▸ hn⟩
        subst ht
        obtain ⟨pre, post, e1⟩ := List.append_of_mem he
        obtain ⟨e', he', hd⟩ := hp pre e post e1 (join ['/'] q) ⟨join ['/'] t, by rw [hn.2.2, join_below h0 ht0]⟩
        exact hq ⟨e', by rw [e1]; simp [he'], h0, fun c hc => hn.2.1 c (by simp [hc]), hd⟩
      · intro hty hpre
        have hne : q ≠ ps := fun e1 => hq ⟨e, he, e1 ▸ hn⟩
        obtain ⟨t, ht⟩ := hpre
        have ht0 : t ≠ [] := by rintro rfl; rw [List.append_nil] at ht; exact hne ht.symm
        have hpre : ps <+: q.dropLast := by rw [← ht, List.dropLast_append_of_ne_nil ht0]; exact List.prefix_append ..
        obtain ⟨d1, d2, _⟩ := Squash.dir_above hk.inv (Squash.has_of hnd) h0 hpre
        obtain ⟨nd', hnd'⟩ := Option.isSome_iff_exists.mp d1
        have hvp : Visible ps := fun c hc => (hn.2.1 c hc).2
        rw [Squash.nonDir_of_get hnd'] at d2
        exact hty ((hfit.2 e he ps hn nd' (by rw [← hk.view ps hvp]; exact hnd')).1.mpr (Squash.isDir_iff.mpr d2))

/-- paths lead where they led -/
theorem leads_kept {rest : Hdr → Str} {n : Nat} {S T : FS} {es : List (Hdr × Bytes)} (h : Spec.Tree es) (hp : Spec.ParentsFirst es)
    (ha : Spec.Added rest n S T es) {V : Squash.Spec.View} (hk : Squash.Kept False S V) (hfit : Spec.Fits V es) {d p : List Str} {cs : List Str}
    (hl : Leads S.get? d cs p) : Visible d → Visible cs → Leads T.get? d cs p ∧ Visible p := by
  have hvis : ∀ {d : List Str} {c : Str} {cs : List Str}, Visible d → Visible (c :: cs) → Visible (d ++ [c]) := by
    intro d c cs hd hc x hx
    rcases List.mem_append.mp hx with hx | hx
    · exact hd x hx
    · rw [List.mem_singleton] at hx; subst hx; exact hc x (by simp)
  have htail : ∀ {c : Str} {cs : List Str}, Visible (c :: cs) → Visible cs := fun hc x hx => hc x (by simp [hx])
  induction hl with
  | here => intro hd _; exact ⟨.here, hd⟩
  | up _ ih =>
    intro hd hc
    obtain ⟨i1, i2⟩ := ih (fun c hc => hd c (List.dropLast_subset _ hc)) (htail hc)
    exact ⟨.up i1, i2⟩
  | @step d c cs p nd h1 h2 h3 h4 _ ih =>
    intro hd hc
    have hv := hvis hd hc
    obtain ⟨i1, i2⟩ := ih hv (htail hc)
    refine ⟨?_, i2⟩
    rcases added_at h hp ha hk hfit hv h2 with e1 | ⟨e, he, hn, e1⟩
    · exact .step h1 e1 h3 h4 i1
    · obtain ⟨f1, f2, f3⟩ := hfit.2 e he _ hn nd (by rw [← hk.view _ hv]; exact h2)
      refine .step h1 e1 ?_ (fun hcs => ?_) i1
      · rintro t ⟨x, e2, e3, _⟩
        cases e2
        exact f2 e3
      · intro x e2
        cases e2
        exact f1.mpr (h4 hcs)
  | @link d c cs p nd t h1 h2 h3 h4 _ ih =>
    intro hd hc
    have hv := hvis hd hc
    have htv : Visible (comps t) := (hk.link _ t (by rw [Squash.link_of_get h2]; exact Squash.linkTo_iff.mp h3)).2.2
    have hstart : Visible (if "/".toList <+: t then [] else d) := by
      split
      · intro c hc; cases hc
      · exact hd
    obtain ⟨i1, i2⟩ := ih hstart (by
      intro x hx
      rcases List.mem_append.mp hx with hx | hx
      · exact htv x hx
      · exact htail hc x hx)
    refine ⟨?_, i2⟩
    rcases added_at h hp ha hk hfit hv h2 with e1 | ⟨e, he, hn, e1⟩
    · exact .link h1 e1 h3 h4 i1
    · exact absurd h3 ((hfit.2 e he _ hn nd (by rw [← hk.view _ hv]; exact h2)).2.2 t)

/-- **C119** for layers that complete their directories, on images whose symlinks are as in C98 and C99 and are not where the layer has
its entries (else it fails, `C119_violated`): every name that opened in the image opens after the layer has been put on it, and
leads to the same place, where there is what was there, or an entry of the layer with that name. -/
theorem C119_reach_partial {rest : Hdr → Str} {es : List (Hdr × Bytes)} (h : Spec.Tree es) (hp : Spec.ParentsFirst es)
    (hs : ∀ e ∈ es, e.1.typeflag = typeSymlink → StraightTarget e.1.linkname ∧ Visible (comps e.1.linkname))
    {base : List (List Entry)} (hin : ∀ l ∈ base, ∀ e ∈ l, ¬ Outside e.header.name) (hf : ∀ l ∈ base, ∀ e ∈ l, LinksFine e)
    {V : Squash.Spec.View} (hw : LoadsTo emptyView (base.flatMap inOrder) V) (hfit : Spec.Fits V es) :
    ∃ n0 S T, (∀ n, n0 ≤ n → loadLayers n base false = some (.ok S) ∧ loadLayers n (base ++ [es.map (Spec.entry rest)]) false = some (.ok T)) ∧
      ∀ name p l, Visible (comps name) → (∃ n, openFile n S name = some (.ok (p, l))) → (∃ n, openFile n T name = some (.ok (p, l))) ∧
        (T.get? p = S.get? p ∨ ∃ e ∈ es, Spec.Named e.1.name p ∧ T.get? p = some (Spec.node rest e)) := by
  obtain ⟨n0, S, T, kS, ⟨W, kT⟩, h1⟩ := complete_added (rest := rest) h hp hs hin hf hw
  refine ⟨n0, S, T, fun n hn => ⟨(h1 n hn).1, (h1 n hn).2.1⟩, ?_⟩
  obtain ⟨l1, l2, ha⟩ := h1 n0 (Nat.le_refl _)
  intro name p l hv ho
  obtain ⟨o1, o2, d, o3, o4⟩ := (Squash.C98_open_partial n0 _ false S l1 kS.straight name p l).mp ho
  have hnil : Visible ([] : List Str) := fun c hc => (nomatch hc)
  obtain ⟨p1, p2⟩ := leads_kept h hp ha kS hfit o2 hnil hv
  obtain ⟨p3, _⟩ := leads_kept h hp ha kS hfit o3 hnil (fun c hc => hv c (List.dropLast_subset _ hc))
  refine ⟨(Squash.C98_open_partial n0 _ false T l2 kT.straight name p l).mpr ⟨o1, p1, d, p3, o4⟩, ?_⟩
  cases hg : S.get? p with
  | some nd => exact added_at h hp ha kS hfit p2 hg
  | none =>
    exfalso
    -- a place that is led to is there
    have key : ∀ {d cs p}, Leads S.get? d cs p → S.has d → S.has p := by
      intro d cs p hl
      induction hl with
      | here => exact id
      | @up d cs p _ ih =>
        intro hd
        refine ih ?_
        by_cases h0 : d = []
        · subst h0; exact hd
        · exact (Squash.dir_above kS.inv hd h0 (List.prefix_refl _)).1
      | step _ h2 _ _ _ ih => intro _; exact ih (Squash.has_of h2)
      | @link d c cs p nd t h1 h2 h3 h4 _ ih =>
        intro hd
        refine ih ?_
        split
        · exact kS.inv.root
        · exact hd
    have := key o2 kS.inv.root
    unfold FS.has at this
    rw [hg] at this
    cases this

/-- **C119** for the layer that `ocibuild layer wheel` makes of an ordinary wheel -/
theorem C119_wheel_partial (w : World) (hsort : SortSlice w.sortSlice) (env : HookEnv) (hrows : SortSlice env.sortRows)
    (plat : Platform) (zip : List ZFile) (ho : Bdist.Spec.Ordinary w env plat zip) (layer : List (Hdr × Bytes)) (h : CommandRun w env plat zip (.ok layer))
    (hmark : ∀ e ∈ layer, ∀ c ∈ split '/' e.1.name, ¬ isMarker c) (hdot : ∀ e ∈ layer, e.1.name ≠ ".".toList)
    (htree : ∀ a ∈ layer, ∀ b ∈ layer, Fsutil.Spec.Below b.1.name a.1.name → a.1.typeflag = typeDir)
    (rest : Hdr → Str) (below : List (List Entry)) (hin : ∀ l ∈ below, ∀ e ∈ l, ¬ Outside e.header.name)
    (hf : ∀ l ∈ below, ∀ e ∈ l, LinksFine e) (V : Squash.Spec.View) (hV : LoadsTo emptyView (below.flatMap inOrder) V) (hfit : Spec.Fits V layer) :
    ∃ n0 S T, (∀ n, n0 ≤ n → loadLayers n below false = some (.ok S) ∧ loadLayers n (below ++ [layer.map (Spec.entry rest)]) false = some (.ok T)) ∧
      ∀ name p l, Visible (comps name) → (∃ n, openFile n S name = some (.ok (p, l))) → (∃ n, openFile n T name = some (.ok (p, l))) ∧
        (T.get? p = S.get? p ∨ ∃ e ∈ layer, Spec.Named e.1.name p ∧ T.get? p = some (Spec.node rest e)) := by
  obtain ⟨honce, helems⟩ := command_names hsort hrows ho h
  obtain ⟨hfirst, htypes⟩ := command_shape hsort hrows ho h
  exact C119_reach_partial ⟨fun e he => ⟨_, layer_named helems hmark hdot e he⟩, honce, htree⟩ hfirst (by
    intro e he hs
    rcases htypes e he with h | h <;> rw [h] at hs <;> exact absurd hs (by decide)) hin hf hV hfit

/-! ### layers made from a directory -/

/-- a walk visits a directory before what it holds -/
def Spec.WalkParents (walk : List WalkItem) : Prop :=
  ∀ pre w post, Fsutil.Spec.tree walk = pre ++ w :: post → ∀ d, Fsutil.Spec.Below w.rel d → ∃ w' ∈ pre, w'.rel = d

theorem named_parent {name d : Str} {ps : List Str} (hn : Spec.Named name ps) (h : Fsutil.Spec.Below name d) :
    ∃ j, 0 < j ∧ j < ps.length ∧ d = join ['/'] (ps.take j) := by
  refine (parent_iff (Squash.plains_clean (fun c hc => (hn.2.1 c hc).1) false) d).mp ?_
  obtain ⟨x, hx⟩ := h
  exact ⟨x, by rw [← hx, hn.2.2]; simp [render, hn.1]⟩

/-- in a layer that `LayerFromDir` makes an entry comes after those of the directories above it -/
theorem dir_parents_first {m : Nat} {accepts : Hdr → Bool} {pre : Option Prefix} {chown : Option Ownership} {zero clamp : Int}
    {walk : List WalkItem} {es : List (Hdr × Bytes)} {cs : List Str} (hp : Spec.PrefixElems pre cs) (hw : Spec.WalkTree walk)
    (hwp : Spec.WalkParents walk) (h : layerFromDir m accepts pre chown zero clamp walk = some (.ok es)) : Spec.ParentsFirst es := by
  obtain ⟨ps, ts, rfl, hps, hdir, hts, hnm⟩ := prefix_entries hp hw h
  have hlen := (walkEntries_get hts).1
  have hpl : ps.length = cs.length := by simpa using congrArg List.length hps
  have hcs : ∀ c ∈ cs, Plain c ∧ ¬ isMarker c := by
    cases pre with
    | none => change cs = [] at hp; subst hp; exact fun c hc => (nomatch hc)
    | some p => change Spec.Named p.dirName cs at hp; exact hp.2.1
  have hpn : ∀ k (hk : k < ps.length), ps[k].1.name = join ['/'] (cs.take (k + 1)) := by
    intro k hk
    have := congrArg (fun l => l[k]?) hps
    simp only [List.getElem?_map] at this
    rw [List.getElem?_eq_getElem hk, List.getElem?_range (by omega)] at this
    simpa using this
  have htn : ∀ k (hk : k < ts.length), ts[k].1.name = entryName pre (Fsutil.Spec.tree walk)[k].rel := by
    intro k hk
    obtain ⟨_, _, e1, _⟩ := walk_entry hts k hk (by omega)
    exact e1
  -- the directories of the prefix come first
  have hpre : ∀ (a : List (Hdr × Bytes)) e b j, ps ++ ts = a ++ e :: b → 0 < j → j ≤ cs.length → j - 1 < a.length →
      ∃ e' ∈ a, e'.1.name = join ['/'] (cs.take j) := by
    intro a e b j he h0 hj ha
    refine ⟨a[j - 1], List.getElem_mem ha, ?_⟩
    have h1 : (ps ++ ts)[j - 1]'(by simp; omega) = a[j - 1] := by
      simp only [he]
      exact List.getElem_append_left ha
    rw [List.getElem_append_left (by omega)] at h1
    rw [← h1, hpn _ (by omega), show j - 1 + 1 = j by omega]
  intro a e b he d hd
  have hek : (ps ++ ts)[a.length]'(by rw [he]; simp) = e := by
    simp only [he]
    rw [List.getElem_append_right (by omega)]
    simp
  by_cases hk : a.length < ps.length
  · rw [List.getElem_append_left hk] at hek
    have hn : Spec.Named e.1.name (cs.take (a.length + 1)) := by
      refine ⟨?_, fun c hc => hcs c (List.mem_of_mem_take hc), by rw [← hek]; exact hpn _ hk⟩
      intro h0
      have := congrArg List.length h0
      rw [List.length_take, List.length_nil] at this
      omega
    obtain ⟨j, h0, hj, rfl⟩ := named_parent hn hd
    rw [List.length_take] at hj
    rw [List.take_take, Nat.min_eq_left (by omega)]
    exact hpre a e b j he h0 (by omega) (by omega)
  · have hal : a.length < ps.length + ts.length := by
      have := congrArg List.length he
      simp only [List.length_append, List.length_cons] at this
      omega
    rw [List.getElem_append_right (by omega)] at hek
    have hi : a.length - ps.length < (Fsutil.Spec.tree walk).length := by omega
    have hwm := List.getElem_mem hi
    obtain ⟨rs, hrs⟩ := hw.named _ hwm
    have hname : e.1.name = entryName pre (Fsutil.Spec.tree walk)[a.length - ps.length].rel := by
      rw [← hek]; exact htn _ (by omega)
    have hn := hnm _ hwm rs hrs
    rw [← hname] at hn
    obtain ⟨j, h0, hj, rfl⟩ := named_parent hn hd
    by_cases hjc : j ≤ cs.length
    · rw [List.take_append_of_le_length hjc]
      exact hpre a e b j he h0 hjc (by omega)
    · rw [List.length_append] at hj
      have e1 : (cs ++ rs).take j = cs ++ rs.take (j - cs.length) := by
        rw [List.take_append, List.take_of_length_le (by omega)]
      have hne1 : rs.take (j - cs.length) ≠ [] := by
        intro h1
        have := congrArg List.length h1
        rw [List.length_take, List.length_nil] at this
        omega
      have hne2 : rs.drop (j - cs.length) ≠ [] := by
        intro h1
        have := congrArg List.length h1
        rw [List.length_drop, List.length_nil] at this
        omega
      obtain ⟨w', hw', hrel⟩ := hwp ((Fsutil.Spec.tree walk).take (a.length - ps.length)) _ ((Fsutil.Spec.tree walk).drop (a.length - ps.length + 1))
        (by rw [← List.drop_eq_getElem_cons hi, List.take_append_drop]) (join ['/'] (rs.take (j - cs.length)))
        ⟨join ['/'] (rs.drop (j - cs.length)), by rw [hrs.2.2, ← join_below hne1 hne2, List.take_append_drop]⟩
      obtain ⟨i', hi', e2⟩ := List.mem_iff_getElem.mp hw'
      rw [List.length_take] at hi'
      rw [List.getElem_take] at e2
      have hx := htn i' (by omega)
      rw [e2] at hx
      have hnx := hnm w' (List.mem_of_mem_take hw') (rs.take (j - cs.length))
        ⟨hne1, fun c hc => hrs.2.1 c (List.mem_of_mem_take hc), hrel⟩
      have ha : ps.length + i' < a.length := by omega
      refine ⟨a[ps.length + i'], List.getElem_mem ha, ?_⟩
      have h1 : (ps ++ ts)[ps.length + i']'(by simp; omega) = a[ps.length + i'] := by
        simp only [he]
        exact List.getElem_append_left ha
      rw [List.getElem_append_right (by omega)] at h1
      simp only [Nat.add_sub_cancel_left] at h1
      rw [← h1, hx, hnx.2.2, e1]

/-- **C104** for `LayerFromDir`, on images with symlinks: the layer puts exactly the files of the directory in, below the prefix if there
is one, together with the directories of the prefix; where the image has a symlink in the place of one of the directories,
the directory takes its place. -/
theorem C104_dir_links_partial {m : Nat} {accepts : Hdr → Bool} {pre : Option Prefix} {chown : Option Ownership} {zero clamp : Int}
    {walk : List WalkItem} {es : List (Hdr × Bytes)} {cs : List Str} (hp : Spec.PrefixElems pre cs) (hw : Spec.WalkTree walk)
    (hwp : Spec.WalkParents walk) (h : layerFromDir m accepts pre chown zero clamp walk = some (.ok es))
    (hs : ∀ e ∈ es, e.1.typeflag = typeSymlink → StraightTarget e.1.linkname ∧ Visible (comps e.1.linkname))
    {rest : Hdr → Str} {base : List (List Entry)} (hin : ∀ l ∈ base, ∀ e ∈ l, ¬ Outside e.header.name) (hf : ∀ l ∈ base, ∀ e ∈ l, LinksFine e)
    {V : Squash.Spec.View} (hV : LoadsTo emptyView (base.flatMap inOrder) V) :
    ∃ n0 S T, (∀ q, Visible q → S.get? q = V q) ∧ ∀ n, n0 ≤ n → loadLayers n base false = some (.ok S) ∧
      loadLayers n (base ++ [es.map (Spec.entry rest)]) false = some (.ok T) ∧ Spec.Added rest n S T es :=
  C104_complete (dir_tree hp hw h) (dir_parents_first hp hw hwp h) hs hin hf hV

/-- **C119** for `LayerFromDir` -/
theorem C119_dir_partial {m : Nat} {accepts : Hdr → Bool} {pre : Option Prefix} {chown : Option Ownership} {zero clamp : Int}
    {walk : List WalkItem} {es : List (Hdr × Bytes)} {cs : List Str} (hp : Spec.PrefixElems pre cs) (hw : Spec.WalkTree walk)
    (hwp : Spec.WalkParents walk) (h : layerFromDir m accepts pre chown zero clamp walk = some (.ok es))
    (hs : ∀ e ∈ es, e.1.typeflag = typeSymlink → StraightTarget e.1.linkname ∧ Visible (comps e.1.linkname))
    {rest : Hdr → Str} {base : List (List Entry)} (hin : ∀ l ∈ base, ∀ e ∈ l, ¬ Outside e.header.name) (hf : ∀ l ∈ base, ∀ e ∈ l, LinksFine e)
    {V : Squash.Spec.View} (hV : LoadsTo emptyView (base.flatMap inOrder) V) (hfit : Spec.Fits V es) :
    ∃ n0 S T, (∀ n, n0 ≤ n → loadLayers n base false = some (.ok S) ∧ loadLayers n (base ++ [es.map (Spec.entry rest)]) false = some (.ok T)) ∧
      ∀ name p l, Visible (comps name) → (∃ n, openFile n S name = some (.ok (p, l))) → (∃ n, openFile n T name = some (.ok (p, l))) ∧
        (T.get? p = S.get? p ∨ ∃ e ∈ es, Spec.Named e.1.name p ∧ T.get? p = some (Spec.node rest e)) :=
  C119_reach_partial (dir_tree hp hw h) (dir_parents_first hp hw hwp h) hs hin hf hV hfit

/-! ### examples -/

/-- an image with a directory "l" that has a file, and "k" a symlink to it -/
def exBeside : List (List Entry) :=
  [[⟨⟨"l".toList, '5', [], 0, 0o755, []⟩, []⟩, ⟨⟨"l/f".toList, '0', [], 1, 0o600, []⟩, [1]⟩, ⟨⟨"k".toList, '2', "l".toList, 0, 0o777, []⟩, []⟩]]

def exBesideView : Squash.Spec.View := (exBeside.flatMap inOrder).foldl Squash.Spec.apply emptyView

theorem exBeside_loads : LoadsTo emptyView (exBeside.flatMap inOrder) exBesideView := by
  have e : exBeside.flatMap inOrder = [⟨⟨"l".toList, '5', [], 0, 0o755, []⟩, []⟩, ⟨⟨"l/f".toList, '0', [], 1, 0o600, []⟩, [1]⟩,
      ⟨⟨"k".toList, '2', "l".toList, 0, 0o777, []⟩, []⟩] := by decide +kernel
  unfold exBesideView
  rw [e]
  exact .cons (Squash.goes_plain (by decide +kernel) (by decide +kernel) (by decide +kernel)) (.cons (Squash.goes_plain (by decide +kernel) (by decide +kernel) (by decide +kernel))
    (.cons (Squash.goes_plain (by decide +kernel) (by decide +kernel) (by decide +kernel)) .nil))

theorem exBeside_inside : ∀ l ∈ exBeside, ∀ e ∈ l, ¬ Outside e.header.name := by
  intro l hl e he
  have h : ∀ l ∈ exBeside, ∀ e ∈ l, e.header.name = "l".toList ∨ e.header.name = "l/f".toList ∨ e.header.name = "k".toList := by decide +kernel
  rcases h l hl e he with h | h | h
  · exact named_inside (ps := ["l".toList]) (named_of (by rw [h]; decide +kernel))
  · exact named_inside (ps := ["l".toList, "f".toList]) (named_of (by rw [h]; decide +kernel))
  · exact named_inside (ps := ["k".toList]) (named_of (by rw [h]; decide +kernel))

theorem exBeside_fine : ∀ l ∈ exBeside, ∀ e ∈ l, LinksFine e := by
  have key : ∀ l ∈ exBeside, ∀ e ∈ l, Visible (Squash.Spec.pathOf e).dropLast ∧ (e.header.typeflag = '2' → Squash.Spec.pathOf e ≠ [] ∧
      e.header.linkname = "l".toList) := by decide +kernel
  intro l hl e he
  obtain ⟨h1, h2⟩ := key l hl e he
  refine ⟨h1, fun h => (h2 h).1, fun h => ?_⟩
  rw [(h2 h).2]
  exact ⟨⟨by decide, 0, ["l".toList], by decide +kernel, by decide +kernel, fun _ => by simp⟩, by decide +kernel⟩

/-- a check for `Spec.Fits` -/
theorem fits_of {V : Squash.Spec.View} {es : List (Hdr × Bytes)} (h0 : ((V []).map Squash.Node.nonDir).getD false = false)
    (h : es.all (fun e => match V (split '/' e.1.name) with
      | none => true
      | some nd => decide (e.1.typeflag = typeDir) == !nd.nonDir && decide (e.1.typeflag ≠ typeSymlink) && nd.link.isNone) = true) : Spec.Fits V es := by
  refine ⟨?_, ?_⟩
  · intro nd hnd
    rw [hnd] at h0
    exact Squash.isDir_iff.mpr h0
  · intro e he ps hn nd hnd
    have hsplit : split '/' e.1.name = ps := by
      rw [hn.2.2, split_join hn.1 (fun c hc => (hn.2.1 c hc).1.2.2.2)]
    have := List.all_eq_true.mp h e he
    rw [hsplit, hnd] at this
    simp only [Bool.and_eq_true, decide_eq_true_eq, beq_iff_eq] at this
    obtain ⟨⟨a, b⟩, c⟩ := this
    refine ⟨?_, b, ?_⟩
    · rw [Squash.isDir_iff]
      cases hx : nd.nonDir <;> rw [hx] at a <;> simpa using a
    · intro t ht
      rw [Squash.linkTo_iff.mp ht] at c
      cases c

/-- the command's layer for the sample wheel meets the conditions of `C119_reach_partial` and of `C119_wheel_partial` on that image -/
example : Bdist.Spec.Ordinary cmdWorld toyHookEnv toyPlat cmdZip ∧ ∃ layer, CommandRun cmdWorld toyHookEnv toyPlat cmdZip (.ok layer) ∧
    (∀ e ∈ layer, ∀ c ∈ split '/' e.1.name, ¬ isMarker c) ∧ (∀ e ∈ layer, e.1.name ≠ ".".toList) ∧
    (∀ a ∈ layer, ∀ b ∈ layer, Fsutil.Spec.Below b.1.name a.1.name → a.1.typeflag = typeDir) ∧
    (∀ l ∈ exBeside, ∀ e ∈ l, ¬ Outside e.header.name) ∧ (∀ l ∈ exBeside, ∀ e ∈ l, LinksFine e) ∧
    LoadsTo emptyView (exBeside.flatMap inOrder) exBesideView ∧ Spec.Fits exBesideView layer := by
  refine ⟨cmd_ordinary, ?_⟩
  have hr := installOnce_run chooses_head cmdWorld toyPlat none none (commandHook toyHookEnv true id id toyPlat) cmdZip
  cases hi : installOnce (fun l => l.headD []) cmdWorld toyPlat none none (commandHook toyHookEnv true id id toyPlat) cmdZip with
  | ok layer =>
    have hchk : (match installOnce (fun l => l.headD []) cmdWorld toyPlat none none (commandHook toyHookEnv true id id toyPlat) cmdZip with
      | .ok layer => decide (∀ e ∈ layer, ∀ c ∈ split '/' e.1.name, ¬ isMarker c) && decide (∀ e ∈ layer, e.1.name ≠ ".".toList) &&
          layer.all (fun a => layer.all (fun b => decide (a.1.typeflag = typeDir) || !(a.1.name ++ ['/']).isPrefixOf b.1.name)) &&
          layer.all (fun e => match exBesideView (split '/' e.1.name) with
            | none => true
            | some nd => decide (e.1.typeflag = typeDir) == !nd.nonDir && decide (e.1.typeflag ≠ typeSymlink) && nd.link.isNone)
      | _ => false) = true := by decide +kernel
    rw [hi] at hr hchk
    simp only [Bool.and_eq_true] at hchk
    obtain ⟨⟨⟨c1, c2⟩, c3⟩, c4⟩ := hchk
    refine ⟨layer, ⟨true, id, id, fun _ => List.Perm.refl _, fun _ => List.Perm.refl _, hr⟩, of_decide_eq_true c1, of_decide_eq_true c2, ?_, exBeside_inside,
      exBeside_fine, exBeside_loads, fits_of (by decide +kernel) c4⟩
    simp only [List.all_eq_true, Bool.or_eq_true, Bool.not_eq_true', decide_eq_true_eq] at c3
    intro a ha b hb ⟨t, hab⟩
    rcases c3 a ha b hb with h | h
    · exact h
    · rw [hab] at h
      have : (a.1.name ++ ['/']).isPrefixOf (a.1.name ++ '/' :: t) = true := by
        rw [List.isPrefixOf_iff_prefix]; exact ⟨t, by simp⟩
      rw [h] at this
      cases this
  | error => rw [hi] at hr; have hn := cmd_names; rw [hi] at hn; exact absurd hn (by decide)
  | panic => rw [hi] at hr; have hn := cmd_names; rw [hi] at hn; exact absurd hn (by decide)
  | hangs => rw [hi] at hr; have hn := cmd_names; rw [hi] at hn; exact absurd hn (by decide)

/-- what opening a name gives in an image, alone and below the layer of a computed run of the command -/
def commandReach (below : List (List Entry)) (name : Str) : Option (Bool × Bool) :=
  match installOnce (fun l => l.headD []) cmdWorld toyPlat none none (commandHook toyHookEnv true id id toyPlat) cmdZip with
  | .ok layer =>
    match loadLayers 9 below false, loadLayers 9 (below ++ [layer.map (Spec.entry (fun _ => []))]) false with
    | some (.ok S), some (.ok T) =>
      match openFile 9 S name, openFile 9 T name with
      | some (.ok _), some (.error _) => some (true, false)
      | _, _ => none
    | _, _ => none
  | _ => none

/-- **C119 does not hold** where the image has a symlink in the place of one of the layer's directories: in the image "l" is a symlink to
"m", and "l/f" opens; after the ordinary wheel, whose files are below "/l", has been installed, "l" is a directory without "f". -/
theorem C119_violated : Bdist.Spec.Ordinary cmdWorld toyHookEnv toyPlat cmdZip ∧
    ∃ layer S T, CommandRun cmdWorld toyHookEnv toyPlat cmdZip (.ok layer) ∧
      loadLayers 9 exLinked false = some (.ok S) ∧ loadLayers 9 (exLinked ++ [layer.map (Spec.entry (fun _ => []))]) false = some (.ok T) ∧
      (∃ x, openFile 9 S "l/f".toList = some (.ok x)) ∧ openFile 9 T "l/f".toList = some (.error ()) ∧
      ∀ e ∈ layer, e.1.name ≠ "l/f".toList ∧ e.1.name ≠ "m/f".toList := by
  refine ⟨cmd_ordinary, ?_⟩
  have h : commandReach exLinked "l/f".toList = some (true, false) := by decide +kernel
  have h2 : (match installOnce (fun l => l.headD []) cmdWorld toyPlat none none (commandHook toyHookEnv true id id toyPlat) cmdZip with
      | .ok layer => decide (∀ e ∈ layer, e.1.name ≠ "l/f".toList ∧ e.1.name ≠ "m/f".toList) | _ => false) = true := by decide +kernel
  unfold commandReach at h
  have hr := installOnce_run chooses_head cmdWorld toyPlat none none (commandHook toyHookEnv true id id toyPlat) cmdZip
  split at h
  · rename_i layer hl
    rw [hl] at hr h2
    split at h
    · rename_i S T hS hT
      split at h
      · rename_i x u hx hu
        exact ⟨layer, S, T, ⟨true, id, id, fun _ => List.Perm.refl _, fun _ => List.Perm.refl _, hr⟩, hS, hT, ⟨x, hx⟩, hu, of_decide_eq_true h2⟩
      · cases h
    · cases h
  · cases h

/-- `sampleWalk` (which has a file with two names and a symlink), below the prefix "l", meets the conditions of `C104_dir_links_partial` and of
`C119_dir_partial` on the image in which "l" is a directory and "k" a symlink to it -/
example : Spec.WalkParents sampleWalk ∧ Spec.PrefixElems (some ⟨"l".toList, 0, ⟨0, [], 0, []⟩⟩) ["l".toList] ∧
    ∃ es, layerFromDir 3 (fun _ => true) (some ⟨"l".toList, 0, ⟨0, [], 0, []⟩⟩) none 0 5 sampleWalk = some (.ok es) ∧
      (∀ e ∈ es, e.1.typeflag = typeSymlink → StraightTarget e.1.linkname ∧ Visible (comps e.1.linkname)) ∧ Spec.Fits exBesideView es := by
  refine ⟨?_, named_of (by decide +kernel), _, rfl, ?_, fits_of (by decide +kernel) (by decide +kernel)⟩
  · intro pre w post he d ⟨x, hd⟩
    have e0 : (Fsutil.Spec.tree sampleWalk).map (·.rel) = ["d".toList, "d/f".toList, "g".toList, "s".toList] := by decide +kernel
    have hm := congrArg (List.map (·.rel)) he
    rw [e0, List.map_append, List.map_cons, hd] at hm
    have key : ∀ y : Str, y ∈ ["d".toList, "g".toList, "s".toList] → y ≠ d ++ '/' :: x := by
      intro y hy e
      have : '/' ∈ y := by rw [e]; simp
      simp only [List.mem_cons, List.not_mem_nil, or_false] at hy
      rcases hy with rfl | rfl | rfl <;> exact absurd this (by decide)
    match pre, hm with
    | [], hm => exact absurd (List.cons.inj hm).1 (key _ (by simp))
    | [w1], hm =>
      obtain ⟨h1, h2⟩ := List.cons.inj hm
      have h3 := (List.cons.inj h2).1
      refine ⟨w1, by simp, ?_⟩
      refine Eq.trans (show w1.rel = "d".toList from h1.symm) ?_
      cases d with
      | nil => exact absurd (List.cons.inj h3).1 (by decide)
      | cons c d =>
        cases d with
        | nil => rw [← (List.cons.inj (show 'd' :: _ = c :: _ from h3)).1]; rfl
        | cons c2 d =>
          exfalso
          have h4 : "/f".toList = c2 :: (d ++ '/' :: x) := (List.cons.inj (show 'd' :: "/f".toList = c :: _ from h3)).2
          have h5 : ['f'] = d ++ '/' :: x := (List.cons.inj (show '/' :: ['f'] = c2 :: _ from h4)).2
          have : '/' ∈ ['f'] := by rw [h5]; simp
          exact absurd this (by decide)
    | [_, _], hm => exact absurd (List.cons.inj (List.cons.inj (List.cons.inj hm).2).2).1 (key _ (by simp))
    | [_, _, _], hm => exact absurd (List.cons.inj (List.cons.inj (List.cons.inj (List.cons.inj hm).2).2).2).1 (key _ (by simp))
    | _ :: _ :: _ :: _ :: _, hm => exact absurd (List.cons.inj (List.cons.inj (List.cons.inj (List.cons.inj hm).2).2).2).2 (by simp)
  · intro e he ht
    have key : ∀ e ∈ ((layerFromDir 3 (fun _ => true) (some ⟨"l".toList, 0, ⟨0, [], 0, []⟩⟩) none 0 5 sampleWalk).bind Except.toOption).getD [],
        e.1.typeflag = typeSymlink → e.1.linkname = "g".toList := by decide +kernel
    rw [key e he ht]
    exact ⟨⟨by decide, 0, ["g".toList], by decide +kernel, by decide +kernel, fun _ => by simp⟩, by decide +kernel⟩

end Onto
