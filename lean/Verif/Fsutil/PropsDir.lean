import Verif.Fsutil.PropsRefs
import Verif.Go.PathDir
/-! C55 (directories), C59, C60, C61: layers made from a directory. -/
namespace Fsutil
open Go

/-! ### prefix -/

/-- the directories `a`, `a/b`, `a/b/c` leading to a path with elements `a`, `b`, `c` -/
def Spec.leading (cs : List Str) : List Str := (List.range cs.length).map (fun i => join ['/'] (cs.take (i + 1)))

theorem leading_snoc (cs : List Str) (c : Str) : Spec.leading (cs ++ [c]) = Spec.leading cs ++ [join ['/'] (cs ++ [c])] := by
  unfold Spec.leading
  rw [List.length_append, List.length_singleton, List.range_succ, List.map_append]
  congr 1
  · apply List.map_congr_left
    intro i hi
    rw [List.mem_range] at hi
    rw [List.take_append_of_le_length (by omega)]
  · simp [List.take_of_length_le]

theorem prefixDirs_render {cs : List Str} (h : CleanElems false cs) {n : Nat} (hn : cs.length < n) :
    prefixDirs n (render false cs) = some (Spec.leading cs).reverse := by
  induction n generalizing cs with
  | zero => omega
  | succ n ih =>
    rw [prefixDirs]
    rcases List.eq_nil_or_concat cs with rfl | ⟨ds, c, rfl⟩
    · rw [if_pos (by decide)]; rfl
    · rw [List.concat_eq_append] at h hn ⊢
      have hne : render false (ds ++ [c]) ≠ ['.'] := by
        intro e
        have := render_inj h (show CleanElems false [] from ⟨0, [], rfl, by simp, fun _ => rfl⟩) (e.trans rfl)
        simp at this
      rw [if_neg hne, pathDir_render h, ih h.init (by rw [List.length_append, List.length_singleton] at hn; omega)]
      rw [leading_snoc]
      simp [render]

theorem prefixDirs_absolute {cs : List Str} (h : CleanElems true cs) (n : Nat) : prefixDirs n (render true cs) = none := by
  induction n generalizing cs with
  | zero => rfl
  | succ n ih =>
    rw [prefixDirs, if_neg (by simp [render])]
    rcases List.eq_nil_or_concat cs with rfl | ⟨ds, c, rfl⟩
    · rw [show pathDir (render true []) = render true [] by decide, ih h]; rfl
    · rw [List.concat_eq_append] at h ⊢
      rw [pathDir_render h, ih h.init]; rfl

/-! ### one file -/

theorem hardLink_name (log : List (Str × Nat)) (file : Nat) (h : Hdr) : (hardLink log file h).name = h.name := by
  unfold hardLink; split <;> rfl

theorem readLink_ok {t : Option Str} {h h' : Hdr} (e : readLink t h = .ok h') :
    (h.typeflag ≠ typeSymlink → h' = h) ∧ (h.typeflag = typeSymlink → ∃ x, t = some x ∧ h' = { h with linkname := x }) := by
  unfold readLink at e
  by_cases ht : h.typeflag = typeSymlink
  · rw [if_pos ht] at e
    cases t with
    | none => cases e
    | some x => cases e; exact ⟨fun h => absurd ht h, fun _ => ⟨x, rfl, rfl⟩⟩
  · rw [if_neg ht] at e; cases e; exact ⟨fun _ => rfl, fun h => absurd h ht⟩

theorem applyChown_typeflag (c : Option Ownership) (h : Hdr) : (applyChown c h).typeflag = h.typeflag ∧ (applyChown c h).size = h.size := by
  unfold applyChown
  cases c with
  | none => exact ⟨rfl, rfl⟩
  | some c => simp only; split <;> split <;> split <;> split <;> exact ⟨rfl, rfl⟩

theorem bodyOf_chown (c : Option Ownership) (h : Hdr) (x : Option Bytes) : bodyOf (applyChown c h) x = bodyOf h x := by
  unfold bodyOf
  rw [(applyChown_typeflag c h).1, (applyChown_typeflag c h).2]

theorem bodyOf_ok {h : Hdr} {x : Option Bytes} {b : Bytes} (e : bodyOf h x = .ok b) :
    (h.typeflag = typeReg → x = some b) ∧ (h.typeflag ≠ typeReg → b = []) := by
  unfold bodyOf at e
  by_cases ht : h.typeflag = typeReg
  · rw [if_pos ht] at e
    cases x with
    | none => cases e
    | some c =>
      simp only at e
      split at e
      · cases e; exact ⟨fun _ => rfl, fun h => absurd ht h⟩
      · cases e
  · rw [if_neg ht] at e; cases e; exact ⟨fun h => absurd h ht, fun _ => rfl⟩

/-- what is written for a file, given the files before it -/
theorem walkEntry_ok {accepts : Hdr → Bool} {pre : Option Prefix} {chown : Option Ownership} {clamp : Int}
    {log : List (Str × Nat)} {w : WalkItem} {e : Option (Hdr × Bytes)} (h : walkEntry accepts pre chown clamp log w = .ok e) :
    w.err = false ∧ (w.rel = ['.'] → e = none) ∧
    (w.rel ≠ ['.'] → ∃ i x b, w.info = some i ∧ readLink w.target (hardLink log w.file { i with name := entryName pre w.rel }) = .ok x ∧
      e = some (Spec.clamped clamp x, b) ∧ bodyOf x w.content = .ok b) := by
  unfold walkEntry at h
  cases he : w.err with
  | true => rw [he] at h; cases h
  | false =>
    refine ⟨rfl, ?_⟩
    rw [he, if_neg (by simp)] at h
    by_cases hd : w.rel = ['.']
    · rw [if_pos hd] at h; cases h; exact ⟨fun _ => rfl, fun h => absurd hd h⟩
    · rw [if_neg hd] at h
      refine ⟨fun h => absurd h hd, fun _ => ?_⟩
      cases hi : w.info with
      | none => rw [hi] at h; cases h
      | some i =>
        rw [hi] at h
        simp only at h
        cases hr : readLink w.target (hardLink log w.file { i with name := entryName pre w.rel }) with
        | error u => rw [hr] at h; cases h
        | ok x =>
          rw [hr] at h
          simp only [Except.bind, clampTimes_eq] at h
          split at h
          · rw [bodyOf_chown] at h
            cases hb : bodyOf (Spec.clamped clamp x) w.content with
            | error u => rw [hb] at h; cases h
            | ok b => rw [hb] at h; cases h; exact ⟨i, x, b, rfl, hr, rfl, hb⟩
          · cases h

/-- the files that get an entry: all but the directory itself -/
def Spec.tree (walk : List WalkItem) : List WalkItem := walk.filter (fun w => w.rel ≠ ['.'])

theorem walkEntries_get {accepts : Hdr → Bool} {pre : Option Prefix} {chown : Option Ownership} {clamp : Int}
    {log : List (Str × Nat)} {ws : List WalkItem} {es : List (Hdr × Bytes)} (h : walkEntries accepts pre chown clamp log ws = .ok es) :
    es.length = (Spec.tree ws).length ∧ ∀ i (h1 : i < es.length) (h2 : i < (Spec.tree ws).length),
      walkEntry accepts pre chown clamp (log ++ ((Spec.tree ws).take i).map (fun w => (entryName pre w.rel, w.file))) (Spec.tree ws)[i]
        = .ok (some es[i]) := by
  induction ws generalizing log es with
  | nil => cases h; exact ⟨rfl, fun i h => by simp at h⟩
  | cons w ws ih =>
    rw [walkEntries] at h
    cases he : walkEntry accepts pre chown clamp log w with
    | error u => rw [he] at h; cases h
    | ok e =>
      rw [he] at h
      simp only [Except.bind] at h
      cases hes : walkEntries accepts pre chown clamp (walkLog pre log w) ws with
      | error u => rw [hes] at h; cases h
      | ok es' =>
        rw [hes] at h
        cases h
        obtain ⟨_, h1, h2⟩ := walkEntry_ok he
        have ihx := ih hes
        by_cases hd : w.rel = ['.']
        · rw [h1 hd]
          rw [walkLog, if_pos hd] at ihx
          have ht : Spec.tree (w :: ws) = Spec.tree ws := by simp [Spec.tree, hd]
          simp only [ht, Option.toList_none, List.nil_append]
          exact ihx
        · obtain ⟨i, x, b, _, _, rfl, _⟩ := h2 hd
          rw [walkLog, if_neg hd] at ihx
          have ht : Spec.tree (w :: ws) = w :: Spec.tree ws := by simp [Spec.tree, hd]
          simp only [ht, Option.toList_some, List.singleton_append]
          refine ⟨by simp [ihx.1], ?_⟩
          intro i h3 h4
          cases i with
          | zero => simpa using he
          | succ i =>
            have := ihx.2 i (by simpa using h3) (by simpa using h4)
            simpa using this

/-- the entries of the tree, in a layer with or without prefix -/
theorem layerFromDir_ok {n : Nat} {accepts : Hdr → Bool} {pre : Option Prefix} {chown : Option Ownership} {zero clamp : Int}
    {walk : List WalkItem} {es : List (Hdr × Bytes)} (h : layerFromDir n accepts pre chown zero clamp walk = some (.ok es)) :
    ∃ ps ts, prefixEntries n accepts pre zero clamp = some (.ok ps) ∧ walkEntries accepts pre chown clamp [] walk = .ok ts ∧ es = ps ++ ts := by
  unfold layerFromDir at h
  cases hp : prefixEntries n accepts pre zero clamp with
  | none => rw [hp] at h; simp at h
  | some r =>
    rw [hp] at h
    cases r with
    | error u => simp [Except.bind] at h
    | ok ps =>
      cases ht : walkEntries accepts pre chown clamp [] walk with
      | error u => rw [ht] at h; simp [Except.bind] at h
      | ok ts => rw [ht] at h; simp [Except.bind] at h; exact ⟨ps, ts, rfl, rfl, h.symm⟩

theorem prefixEntries_ok {n : Nat} {accepts : Hdr → Bool} {p : Prefix} {zero clamp : Int} {ps : List (Hdr × Bytes)}
    (h : prefixEntries n accepts (some p) zero clamp = some (.ok ps)) :
    ∃ dirs, prefixDirs n p.dirName = some dirs ∧ ps = dirs.reverse.map (fun d => (prefixHdr zero clamp p d, [])) := by
  unfold prefixEntries at h
  simp only at h
  cases hd : prefixDirs n p.dirName with
  | none => rw [hd] at h; simp at h
  | some dirs =>
    rw [hd] at h
    simp only [Option.map_some, Option.some.injEq] at h
    split at h
    · refine ⟨dirs, rfl, ?_⟩
      rw [Except.ok.injEq] at h
      rw [← h, List.map_map]
      rfl
    · cases h

theorem relative_clean_elems {s : Str} (hc : clean s = s) (hr : isRooted s = false) : ∃ cs, CleanElems false cs ∧ s = render false cs := by
  obtain ⟨cs, h, e⟩ := clean_shape s
  rw [hc, hr] at e
  rw [hr] at h
  exact ⟨cs, h, e⟩

/-- the name of an entry below the prefix -/
theorem entryName_prefix {p : Prefix} {rel : Str} (hc : clean p.dirName = p.dirName) (hr : isRooted p.dirName = false)
    (hdot : p.dirName ≠ ['.']) {rs : List Str} (hrel : rel = join ['/'] rs) (hne : rs ≠ []) (hpl : ∀ c ∈ rs, Plain c) :
    entryName (some p) rel = p.dirName ++ '/' :: rel := by
  obtain ⟨cs, hcs, e⟩ := relative_clean_elems hc hr
  have hcs0 : cs ≠ [] := by rintro rfl; exact hdot (e.trans rfl)
  have hrn : rel ≠ [] := by rw [hrel]; exact join_ne_nil hne (fun c h => (hpl c h).1)
  have hpn : p.dirName ≠ [] := by rw [e]; exact render_ne_nil' (fun c h => (hcs.elem c h).1)
  have hcat : CleanElems false (cs ++ rs) := by
    obtain ⟨k, ds, e1, h1, _⟩ := hcs
    refine ⟨k, ds ++ rs, by rw [e1]; simp, ?_, by simp⟩
    intro c h
    rcases List.mem_append.mp h with h | h
    · exact h1 c h
    · exact hpl c h
  show pathJoin [p.dirName, rel] = _
  unfold pathJoin
  have : [p.dirName, rel].filter (· ≠ []) = [p.dirName, rel] := by simp [hpn, hrn]
  rw [this]
  show clean (join ['/'] [p.dirName, rel]) = _
  have ej : join ['/'] [p.dirName, rel] = p.dirName ++ '/' :: rel := by simp [join]
  rw [ej]
  have er : p.dirName ++ '/' :: rel = render false (cs ++ rs) := by
    rw [e, hrel]
    unfold render
    simp only [Bool.false_eq_true, if_false]
    rw [if_neg hcs0, if_neg (by simp [hcs0])]
    have hj : ∀ l : List Str, l ≠ [] → join ['/'] (l ++ rs) = join ['/'] l ++ '/' :: join ['/'] rs := by
      intro l
      induction l with
      | nil => intro h; exact absurd rfl h
      | cons x l ih =>
        intro _
        by_cases hl : l = []
        · subst hl; rw [List.singleton_append, join_cons hne]; simp [join]
        · rw [List.cons_append, join_cons (by simp [hl]), join_cons hl, ih hl]; simp
    rw [hj cs hcs0]
  rw [er, clean_render hcat]

/-- a name as `filepath.Walk` reports it for a file inside the directory -/
def Spec.InTree (rel : Str) : Prop := ∃ rs, rs ≠ [] ∧ (∀ c ∈ rs, Plain c) ∧ rel = join ['/'] rs

/-- **C59**: with a relative cleaned prefix with elements `cs`, other than ".", the layer starts with the directories leading
to it, outermost first, each with the prefix's mode (0755 if 0) and owner; then comes one entry for each file of the tree,
in the order of the walk, named prefix/REL. -/
theorem C59_prefix {n : Nat} {accepts : Hdr → Bool} {p : Prefix} {chown : Option Ownership} {zero clamp : Int}
    {walk : List WalkItem} {es : List (Hdr × Bytes)} {cs : List Str} (hp : p.dirName = join ['/'] cs) (hcs : cs ≠ [])
    (hpl : ∀ c ∈ cs, Plain c) (hw : ∀ w ∈ Spec.tree walk, Spec.InTree w.rel)
    (h : layerFromDir n accepts (some p) chown zero clamp walk = some (.ok es)) :
    ∃ ps ts, es = ps ++ ts ∧
      ps.map (·.1.name) = (List.range cs.length).map (fun i => join ['/'] (cs.take (i + 1))) ∧
      (∀ e ∈ ps, e.1.typeflag = '5' ∧ e.1.mode = (if p.mode = 0 then 0o755 else p.mode) ∧ e.1.uid = p.owner.uid ∧
        e.1.gid = p.owner.gid ∧ e.1.uname = p.owner.uname ∧ e.1.gname = p.owner.gname ∧ e.1.modTime = clamp ∧ e.2 = []) ∧
      ts.map (·.1.name) = (Spec.tree walk).map (fun w => p.dirName ++ '/' :: w.rel) := by
  obtain ⟨ps, ts, h1, h2, rfl⟩ := layerFromDir_ok h
  refine ⟨ps, ts, rfl, ?_⟩
  have hce : CleanElems false cs := ⟨0, cs, by simp, hpl, fun _ => rfl⟩
  have hren : p.dirName = render false cs := by rw [hp]; simp [render, hcs]
  obtain ⟨dirs, hd, rfl⟩ := prefixEntries_ok h1
  have hdirs : dirs.reverse = Spec.leading cs := by
    rcases Nat.lt_or_ge cs.length n with hn | hn
    · rw [hren, prefixDirs_render hce hn] at hd
      rw [← Option.some.inj hd, List.reverse_reverse]
    · -- the loop cannot end in so few steps
      exfalso
      have short : ∀ (n : Nat) (cs : List Str), CleanElems false cs → n ≤ cs.length → prefixDirs n (render false cs) = none := by
        intro n
        induction n with
        | zero => intro cs _ _; rfl
        | succ n ih =>
          intro cs hce hl
          rcases List.eq_nil_or_concat cs with rfl | ⟨ds, c, rfl⟩
          · simp at hl
          · rw [List.concat_eq_append] at hce hl ⊢
            rw [prefixDirs, pathDir_render hce, ih ds hce.init (by simp at hl; omega)]
            rw [if_neg]
            · rfl
            · intro e
              have := render_inj hce (show CleanElems false [] from ⟨0, [], rfl, by simp, fun _ => rfl⟩) (e.trans rfl)
              simp at this
      rw [hren, short n cs hce hn] at hd
      cases hd
  refine ⟨?_, ?_, ?_⟩
  · rw [hdirs, List.map_map]
    show (Spec.leading cs).map (fun d => d) = _
    rw [List.map_id']; rfl
  · intro e he
    rw [List.mem_map] at he
    obtain ⟨d, _, rfl⟩ := he
    exact ⟨rfl, rfl, rfl, rfl, rfl, rfl, rfl, rfl⟩
  · obtain ⟨hl, hg⟩ := walkEntries_get h2
    apply List.ext_getElem (by simp [hl])
    intro i hi1 hi2
    rw [List.length_map] at hi1 hi2
    rw [List.getElem_map, List.getElem_map]
    have hmem := List.getElem_mem hi2
    obtain ⟨_, _, h4⟩ := walkEntry_ok (hg i hi1 hi2)
    have hnd : (Spec.tree walk)[i].rel ≠ ['.'] := by
      have := (List.mem_filter.mp hmem).2
      exact of_decide_eq_true this
    obtain ⟨info, x, b, _, hr, he, _⟩ := h4 hnd
    rw [Option.some.injEq] at he
    rw [he]
    have hx : x.name = entryName (some p) (Spec.tree walk)[i].rel := by
      have := readLink_ok hr
      by_cases ht : (hardLink ([] ++ ((Spec.tree walk).take i).map (fun w => (entryName (some p) w.rel, w.file))) (Spec.tree walk)[i].file
          { info with name := entryName (some p) (Spec.tree walk)[i].rel }).typeflag = typeSymlink
      · obtain ⟨_, _, e⟩ := this.2 ht
        rw [e]; exact hardLink_name _ _ _
      · rw [this.1 ht]; exact hardLink_name _ _ _
    show x.name = _
    rw [hx]
    obtain ⟨rs, hne, hpl', hrel⟩ := hw _ hmem
    refine entryName_prefix ?_ ?_ ?_ hrel hne hpl'
    · rw [hren]; exact clean_render hce
    · rw [hren]; exact isRooted_render (fun c hc => ⟨(hpl c hc).1, (hpl c hc).2.2.2⟩)
    · rw [hren]
      intro e
      exact hcs (render_inj hce (show CleanElems false [] from ⟨0, [], rfl, by simp, fun _ => rfl⟩) (e.trans rfl)).2

/-- with a relative prefix the call ends, whatever the depth -/
theorem C59_ends {accepts : Hdr → Bool} {p : Prefix} (chown : Option Ownership) (zero clamp : Int) (walk : List WalkItem)
    (hc : clean p.dirName = p.dirName) (hr : isRooted p.dirName = false) :
    ∃ N, ∀ n, N ≤ n → (layerFromDir n accepts (some p) chown zero clamp walk).isSome := by
  obtain ⟨cs, h, e⟩ := relative_clean_elems hc hr
  refine ⟨cs.length + 1, fun n hn => ?_⟩
  unfold layerFromDir prefixEntries
  simp only
  rw [e, prefixDirs_render h hn]
  rfl

/-- with an absolute prefix the loop at dir.go:56 never ends -/
theorem C59_absolute_never_ends {accepts : Hdr → Bool} {p : Prefix} (chown : Option Ownership) (zero clamp : Int) (walk : List WalkItem)
    (hc : clean p.dirName = p.dirName) (hr : isRooted p.dirName = true) (n : Nat) :
    layerFromDir n accepts (some p) chown zero clamp walk = none := by
  obtain ⟨cs, h, e⟩ := clean_shape p.dirName
  rw [hc, hr] at e
  rw [hr] at h
  unfold layerFromDir prefixEntries
  simp only
  rw [e, prefixDirs_absolute h]
  rfl

/-- without prefix the entries have the names of the files in the tree -/
theorem C59_no_prefix {n : Nat} {accepts : Hdr → Bool} {chown : Option Ownership} {zero clamp : Int}
    {walk : List WalkItem} {es : List (Hdr × Bytes)} (h : layerFromDir n accepts none chown zero clamp walk = some (.ok es)) :
    es.map (·.1.name) = (Spec.tree walk).map (·.rel) := by
  obtain ⟨ps, ts, h1, h2, rfl⟩ := layerFromDir_ok h
  cases h1
  obtain ⟨hl, hg⟩ := walkEntries_get h2
  apply List.ext_getElem (by simp [hl])
  intro i hi1 hi2
  rw [List.length_map] at hi1 hi2
  rw [List.getElem_map, List.getElem_map]
  simp only [List.nil_append] at hi1 ⊢
  obtain ⟨_, _, h4⟩ := walkEntry_ok (hg i hi1 hi2)
  have hnd : (Spec.tree walk)[i].rel ≠ ['.'] := of_decide_eq_true (List.mem_filter.mp (List.getElem_mem hi2)).2
  obtain ⟨info, x, b, _, hr, he, _⟩ := h4 hnd
  rw [Option.some.injEq] at he
  rw [he]
  show x.name = _
  have := readLink_ok hr
  by_cases ht : (hardLink ([] ++ ((Spec.tree walk).take i).map (fun w => (entryName none w.rel, w.file))) (Spec.tree walk)[i].file
      { info with name := entryName none (Spec.tree walk)[i].rel }).typeflag = typeSymlink
  · obtain ⟨_, _, e⟩ := this.2 ht
    rw [e]; exact hardLink_name _ _ _
  · rw [this.1 ht]; exact hardLink_name _ _ _

/-! ### ownership -/

/-- **C60 does not hold**: the result of `LayerFromDir` does not depend on the `chown` argument at all, since the header is
written before it is changed. -/
theorem C60_chown_ignored (n : Nat) (accepts : Hdr → Bool) (pre : Option Prefix) (chown : Option Ownership) (zero clamp : Int)
    (walk : List WalkItem) :
    layerFromDir n accepts pre chown zero clamp walk = layerFromDir n accepts pre none zero clamp walk := by
  have h1 : ∀ log w, walkEntry accepts pre chown clamp log w = walkEntry accepts pre none clamp log w := by
    intro log w
    unfold walkEntry
    simp only [bodyOf_chown]
  have h2 : ∀ ws log, walkEntries accepts pre chown clamp log ws = walkEntries accepts pre none clamp log ws := by
    intro ws
    induction ws with
    | nil => intro log; rfl
    | cons w ws ih =>
      intro log
      rw [walkEntries, walkEntries, h1]
      congr 1
      funext e
      rw [ih]
  unfold layerFromDir
  rw [h2]

/-- every entry of the tree has the requested owner (numbers when not negative, names when not empty) -/
def Spec.OwnedBy (c : Ownership) (h : Hdr) : Prop :=
  (c.uid ≥ 0 → h.uid = c.uid) ∧ (c.gid ≥ 0 → h.gid = c.gid) ∧ (c.uname ≠ [] → h.uname = c.uname) ∧ (c.gname ≠ [] → h.gname = c.gname)

/-- a tree with one file owned by user 1000 -/
def ownedWalk : List WalkItem :=
  [⟨false, ".".toList, none, 1, none, none⟩,
   ⟨false, "f".toList, some { sampleHdr [] '0' 3 1 with uid := 1000 }, 2, none, some [7]⟩]

/-- **C60**, negation: asking for root ownership leaves a file of user 1000 as it is -/
theorem C60_violated : ∃ es, layerFromDir 1 (fun _ => true) none (some ⟨0, "root".toList, 0, "root".toList⟩) 0 5 ownedWalk = some (.ok es) ∧
    ¬ ∀ e ∈ es, Spec.OwnedBy ⟨0, "root".toList, 0, "root".toList⟩ e.1 := by
  refine ⟨[({ sampleHdr "f".toList '0' 3 1 with uid := 1000 }, [7])], by decide +kernel, ?_⟩
  intro h
  have := (h _ (List.mem_singleton.mpr rfl)).1 (by decide)
  exact absurd this (by decide)

/-- **C60**, part: an entry has the requested owner when the file already had it -/
theorem C60_owned_partial {n : Nat} {accepts : Hdr → Bool} {pre : Option Prefix} {c : Ownership} {zero clamp : Int}
    {walk : List WalkItem} {ts : List (Hdr × Bytes)}
    (h : layerFromDir n accepts pre (some c) zero clamp walk = some (.ok ts))
    (hp : ∀ p, pre = some p → p.owner = c) (hw : ∀ w ∈ walk, ∀ i, w.info = some i → Spec.OwnedBy c i) :
    ∀ e ∈ ts, Spec.OwnedBy c e.1 := by
  obtain ⟨ps, ts, h1, h2, rfl⟩ := layerFromDir_ok h
  intro e he
  rcases List.mem_append.mp he with he | he
  · cases pre with
    | none => cases h1; cases he
    | some p =>
      obtain ⟨dirs, _, rfl⟩ := prefixEntries_ok h1
      obtain ⟨d, _, rfl⟩ := List.mem_map.mp he
      have := hp p rfl
      subst this
      exact ⟨fun _ => rfl, fun _ => rfl, fun _ => rfl, fun _ => rfl⟩
  · obtain ⟨hl, hg⟩ := walkEntries_get h2
    obtain ⟨i, hi, rfl⟩ := List.mem_iff_getElem.mp he
    have hi2 : i < (Spec.tree walk).length := by omega
    obtain ⟨_, _, h4⟩ := walkEntry_ok (hg i hi hi2)
    have hmem := List.mem_filter.mp (List.getElem_mem hi2)
    obtain ⟨info, x, b, hin, hr, hee, _⟩ := h4 (of_decide_eq_true hmem.2)
    rw [Option.some.injEq] at hee
    rw [hee]
    have ho := hw _ hmem.1 info hin
    have hh : Spec.OwnedBy c (hardLink ([] ++ ((Spec.tree walk).take i).map (fun w => (entryName pre w.rel, w.file))) (Spec.tree walk)[i].file
        { info with name := entryName pre (Spec.tree walk)[i].rel }) := by
      unfold hardLink; split <;> exact ho
    have := readLink_ok hr
    show Spec.OwnedBy c (Spec.clamped clamp x)
    by_cases ht : (hardLink ([] ++ ((Spec.tree walk).take i).map (fun w => (entryName pre w.rel, w.file))) (Spec.tree walk)[i].file
        { info with name := entryName pre (Spec.tree walk)[i].rel }).typeflag = typeSymlink
    · obtain ⟨_, _, e⟩ := this.2 ht
      rw [e]; exact hh
    · rw [this.1 ht]; exact hh

/-! ### hard links and times -/

theorem hardLink_spec (log : List (Str × Nat)) (file : Nat) (h : Hdr) :
    ((∀ e ∈ log, e.2 ≠ file) ∧ hardLink log file h = h) ∨
    (∃ j, ∃ hj : j < log.length, log[j].2 = file ∧ (∀ k (hk : k < log.length), k < j → log[k].2 ≠ file) ∧
      hardLink log file h = { h with typeflag := typeLink, linkname := log[j].1 }) := by
  unfold hardLink
  induction log with
  | nil => exact Or.inl ⟨by simp, rfl⟩
  | cons e log ih =>
    by_cases he : e.2 = file
    · right
      refine ⟨0, by simp, by simpa using he, by intro k _ h; omega, ?_⟩
      rw [List.find?_cons_of_pos (by simp [he])]
      rfl
    · rw [List.find?_cons_of_neg (by simp [he])]
      rcases ih with ⟨h1, h2⟩ | ⟨j, hj, h1, h2, h3⟩
      · refine Or.inl ⟨?_, h2⟩
        intro x hx
        rcases List.mem_cons.mp hx with rfl | hx
        · exact he
        · exact h1 x hx
      · refine Or.inr ⟨j + 1, by simp; omega, by simpa using h1, ?_, by simpa using h3⟩
        intro k hk hkj
        cases k with
        | zero => simpa using he
        | succ k => simpa using h2 k (by simpa using hk) (by omega)

/-- **C61**: let the tree's files be `tree` (in walk order) and the entries for them `ts`.  Each entry but those for the
first name of a file is a hard link with no content, and names the entry for the first name of the same file, which comes
earlier and is not a hard link.  The entry for the first name of a file is not a hard link and, for a regular file, carries
the file's content.  So the content is emitted exactly once per file. -/
theorem C61_hardlinks {n : Nat} {accepts : Hdr → Bool} {pre : Option Prefix} {chown : Option Ownership} {zero clamp : Int}
    {walk : List WalkItem} {es : List (Hdr × Bytes)} (hinfo : ∀ w ∈ walk, ∀ i, w.info = some i → i.typeflag ≠ '1')
    (h : layerFromDir n accepts pre chown zero clamp walk = some (.ok es)) :
    ∃ ps ts, es = ps ++ ts ∧ prefixEntries n accepts pre zero clamp = some (.ok ps) ∧
      ∃ hl : ts.length = (Spec.tree walk).length, ∀ i (hi : i < ts.length),
        ((∀ j (hj : j < i), (Spec.tree walk)[j].file ≠ (Spec.tree walk)[i].file) ∧ ts[i].1.typeflag ≠ '1' ∧
          (ts[i].1.typeflag = '0' → (Spec.tree walk)[i].content = some ts[i].2)) ∨
        (ts[i].1.typeflag = '1' ∧ ts[i].2 = [] ∧
          ∃ j, ∃ hj : j < i, (Spec.tree walk)[j].file = (Spec.tree walk)[i].file ∧ ts[i].1.linkname = ts[j].1.name ∧
            ts[j].1.typeflag ≠ '1' ∧ ∀ k (hk : k < j), (Spec.tree walk)[k].file ≠ (Spec.tree walk)[i].file) := by
  obtain ⟨ps, ts, h1, h2, rfl⟩ := layerFromDir_ok h
  obtain ⟨hl, hg⟩ := walkEntries_get h2
  refine ⟨ps, ts, rfl, h1, hl, ?_⟩
  -- one entry
  have key : ∀ i (hi : i < ts.length) (hi2 : i < (Spec.tree walk).length),
      ts[i].1.name = entryName pre (Spec.tree walk)[i].rel ∧
      (((∀ j (hj : j < i), (Spec.tree walk)[j].file ≠ (Spec.tree walk)[i].file) ∧ ts[i].1.typeflag ≠ typeLink ∧
          (ts[i].1.typeflag = typeReg → (Spec.tree walk)[i].content = some ts[i].2)) ∨
        (ts[i].1.typeflag = typeLink ∧ ts[i].2 = [] ∧
          ∃ j, ∃ hj : j < i, (Spec.tree walk)[j].file = (Spec.tree walk)[i].file ∧
            ts[i].1.linkname = entryName pre (Spec.tree walk)[j].rel ∧
            ∀ k (hk : k < j), (Spec.tree walk)[k].file ≠ (Spec.tree walk)[i].file)) := by
    intro i hi hi2
    obtain ⟨_, _, h4⟩ := walkEntry_ok (hg i hi hi2)
    have hmem := List.mem_filter.mp (List.getElem_mem hi2)
    obtain ⟨info, x, b, hin, hr, hee, hb⟩ := h4 (of_decide_eq_true hmem.2)
    rw [Option.some.injEq] at hee
    rw [hee]
    have hrl := readLink_ok hr
    have hbo := bodyOf_ok hb
    rw [List.nil_append] at hr hrl
    rcases hardLink_spec (((Spec.tree walk).take i).map (fun w => (entryName pre w.rel, w.file))) (Spec.tree walk)[i].file
      { info with name := entryName pre (Spec.tree walk)[i].rel } with ⟨hn, e⟩ | ⟨j, hj, hf, hmin, e⟩
    · rw [e] at hrl
      have hx : x.name = entryName pre (Spec.tree walk)[i].rel ∧ x.typeflag = info.typeflag := by
        by_cases ht : info.typeflag = typeSymlink
        · obtain ⟨_, _, e⟩ := hrl.2 ht; rw [e]; exact ⟨rfl, rfl⟩
        · rw [hrl.1 ht]; exact ⟨rfl, rfl⟩
      refine ⟨hx.1, Or.inl ⟨?_, ?_, hbo.1⟩⟩
      · intro j hj
        have := hn (entryName pre (Spec.tree walk)[j].rel, (Spec.tree walk)[j].file) (by
          refine List.mem_map.mpr ⟨(Spec.tree walk)[j], ?_, rfl⟩
          exact List.mem_take_iff_getElem.mpr ⟨j, by omega, rfl⟩)
        exact this
      · show x.typeflag ≠ typeLink
        rw [hx.2]; exact hinfo _ hmem.1 info hin
    · rw [e] at hrl
      have hx := hrl.1 (show typeLink ≠ typeSymlink by decide)
      have hj' : j < i := by simp at hj; omega
      refine ⟨by rw [hx]; rfl, Or.inr ⟨by rw [hx]; rfl, ?_, j, hj', ?_, ?_, ?_⟩⟩
      · exact hbo.2 (by rw [hx]; exact (by decide : typeLink ≠ typeReg))
      · simpa using hf
      · rw [hx]
        simp [Spec.clamped]
      · intro k hk
        have := hmin k (by omega) hk
        simpa using this
  intro i hi
  rcases (key i hi (by omega)).2 with h5 | ⟨h5, h6, j, hj, h7, h8, h9⟩
  · exact Or.inl h5
  · refine Or.inr ⟨h5, h6, j, hj, h7, ?_, ?_, h9⟩
    · rw [h8, (key j (by omega) (by omega)).1]
    · rcases (key j (by omega) (by omega)).2 with h10 | ⟨_, _, k, hk, h11, _⟩
      · exact h10.2.1
      · exact absurd (h11.trans h7) (h9 k hk)

/-- **C55** for `LayerFromDir`, headers handed to the tar writer: the three times of a file of the tree are the minimum of
themselves and the clamp time, its mode, owner and size are unchanged.  Missing: what the tar writer does to the times, see
`C55_written_rounded`. -/
theorem C55_clamped_dir_partial {n : Nat} {accepts : Hdr → Bool} {pre : Option Prefix} {chown : Option Ownership} {zero clamp : Int}
    {walk : List WalkItem} {es : List (Hdr × Bytes)} (h : layerFromDir n accepts pre chown zero clamp walk = some (.ok es)) :
    ∃ ps ts, es = ps ++ ts ∧ prefixEntries n accepts pre zero clamp = some (.ok ps) ∧ (∀ e ∈ ps, e.1.modTime = clamp) ∧
      ∃ hl : ts.length = (Spec.tree walk).length, ∀ i (hi : i < ts.length), ∃ info, (Spec.tree walk)[i].info = some info ∧
        ts[i].1 = { info with name := ts[i].1.name, typeflag := ts[i].1.typeflag, linkname := ts[i].1.linkname,
                              modTime := min info.modTime clamp, accessTime := min info.accessTime clamp,
                              changeTime := min info.changeTime clamp } := by
  obtain ⟨ps, ts, h1, h2, rfl⟩ := layerFromDir_ok h
  obtain ⟨hl, hg⟩ := walkEntries_get h2
  refine ⟨ps, ts, rfl, h1, ?_, hl, ?_⟩
  · intro e he
    cases pre with
    | none => cases h1; cases he
    | some p =>
      obtain ⟨dirs, _, rfl⟩ := prefixEntries_ok h1
      obtain ⟨d, _, rfl⟩ := List.mem_map.mp he
      rfl
  · intro i hi
    have hi2 : i < (Spec.tree walk).length := by omega
    obtain ⟨_, _, h4⟩ := walkEntry_ok (hg i hi hi2)
    have hmem := List.mem_filter.mp (List.getElem_mem hi2)
    obtain ⟨info, x, b, hin, hr, hee, _⟩ := h4 (of_decide_eq_true hmem.2)
    rw [Option.some.injEq] at hee
    refine ⟨info, hin, ?_⟩
    rw [hee]
    have hrl := readLink_ok hr
    rcases hardLink_spec ([] ++ ((Spec.tree walk).take i).map (fun w => (entryName pre w.rel, w.file))) (Spec.tree walk)[i].file
      { info with name := entryName pre (Spec.tree walk)[i].rel } with ⟨_, e⟩ | ⟨j, hj, _, _, e⟩ <;> rw [e] at hrl
    · by_cases ht : info.typeflag = typeSymlink
      · obtain ⟨_, _, e⟩ := hrl.2 ht; rw [e]; rfl
      · rw [hrl.1 ht]; rfl
    · rw [hrl.1 (show typeLink ≠ typeSymlink by decide)]; rfl

/-- a tree with a directory, a file with two names, and a symlink -/
def sampleWalk : List WalkItem :=
  [⟨false, ".".toList, none, 1, none, none⟩,
   ⟨false, "d".toList, some (sampleHdr [] '5' 9 0), 2, none, none⟩,
   ⟨false, "d/f".toList, some (sampleHdr [] '0' 3 2), 3, none, some [1, 2]⟩,
   ⟨false, "g".toList, some (sampleHdr [] '0' 3 2), 3, none, some [1, 2]⟩,
   ⟨false, "s".toList, some (sampleHdr [] '2' 4 0), 4, some "g".toList, none⟩]

example : layerFromDir 3 (fun _ => true) (some ⟨"usr/bin".toList, 0, ⟨0, [], 0, []⟩⟩) none 0 5 sampleWalk = some (.ok
    [({ sampleHdr "usr".toList '5' 0 0 with mode := 0o755, modTime := 5 }, []),
     ({ sampleHdr "usr/bin".toList '5' 0 0 with mode := 0o755, modTime := 5 }, []),
     (sampleHdr "usr/bin/d".toList '5' 5 0, []),
     (sampleHdr "usr/bin/d/f".toList '0' 3 2, [1, 2]),
     ({ sampleHdr "usr/bin/g".toList '1' 3 2 with linkname := "usr/bin/d/f".toList }, []),
     ({ sampleHdr "usr/bin/s".toList '2' 4 0 with linkname := "g".toList }, [])]) ∧
    (∀ w ∈ sampleWalk, ∀ i, w.info = some i → i.typeflag ≠ typeLink) := by
  refine ⟨by decide +kernel, ?_⟩
  intro w hw i hi
  simp only [sampleWalk, List.mem_cons, List.not_mem_nil, or_false] at hw
  rcases hw with rfl | rfl | rfl | rfl | rfl <;> simp at hi <;> subst hi <;> decide

/-- the names in the sample are names inside the tree -/
example : ∀ w ∈ Spec.tree sampleWalk, Spec.InTree w.rel := by
  intro w hw
  have : w.rel ∈ ["d".toList, "d/f".toList, "g".toList, "s".toList] := by
    have h : ∀ w ∈ Spec.tree sampleWalk, w.rel ∈ ["d".toList, "d/f".toList, "g".toList, "s".toList] := by
      intro w hw
      have := List.mem_map_of_mem (f := (·.rel)) hw
      exact this
    exact h w hw
  simp only [List.mem_cons, List.not_mem_nil, or_false] at this
  rcases this with h | h | h | h <;> rw [h]
  · exact ⟨["d".toList], by simp, by simp [Plain], by decide⟩
  · exact ⟨["d".toList, "f".toList], by simp, by simp [Plain], by decide⟩
  · exact ⟨["g".toList], by simp, by simp [Plain], by decide⟩
  · exact ⟨["s".toList], by simp, by simp [Plain], by decide⟩

end Fsutil
