import Verif.Fsutil.PropsDir
/-! C59: which prefixes the loop ends for, and prefixes in any spelling. -/
namespace Fsutil
open Go

namespace Spec
/-- the elements of a path: what is between its slashes, without empty ones and `.` -/
def elements (s : Str) : List Str := (split '/' s).filter (fun c => c ≠ [] ∧ c ≠ ['.'])
end Spec

theorem last_slash {s : Str} (hs : '/' ∈ s) : ∃ a b, s = a ++ '/' :: b ∧ '/' ∉ b := by
  induction s with
  | nil => cases hs
  | cons c s ih =>
    by_cases h' : '/' ∈ s
    · obtain ⟨a, b, rfl, hb⟩ := ih h'
      exact ⟨c :: a, b, rfl, hb⟩
    · rcases List.mem_cons.mp hs with rfl | h''
      · exact ⟨[], s, rfl, h'⟩
      · exact absurd h'' h'

theorem isRooted_pathDir (s : Str) : isRooted (pathDir s) = isRooted s := by
  unfold pathDir
  obtain ⟨cs, h, e⟩ := clean_shape (pathSplit s).1
  rw [e, isRooted_render (fun c hc => ⟨(h.elem c hc).1, (h.elem c hc).2.2⟩)]
  by_cases hs : '/' ∈ s
  · obtain ⟨a, b, rfl, hb⟩ := last_slash hs
    rw [pathSplit_slash hb]
    cases a <;> rfl
  · rw [pathSplit_none hs]
    cases s with
    | nil => rfl
    | cons c s =>
      have : c ≠ '/' := fun e => hs (by simp [e])
      simp [isRooted, this]

theorem clean_pathDir (s : Str) : clean (pathDir s) = pathDir s := clean_idem _

/-- **C59** The call ends exactly if the prefix does not begin with a slash, however it is spelled otherwise. -/
theorem C59_ends_iff {accepts : Hdr → Bool} {p : Prefix} (chown : Option Ownership) (zero clamp : Int) (walk : List WalkItem) :
    (∃ n, (layerFromDir n accepts (some p) chown zero clamp walk).isSome) ↔ p.dirName.head? ≠ some '/' := by
  have hrt : p.dirName.head? ≠ some '/' ↔ isRooted p.dirName = false := by unfold isRooted; simp
  have hl : ∀ n, (layerFromDir n accepts (some p) chown zero clamp walk).isSome = (prefixDirs n p.dirName).isSome := by
    intro n
    unfold layerFromDir prefixEntries
    simp
  rw [hrt]
  simp only [hl]
  constructor
  · rintro ⟨n, hn⟩
    cases hr : isRooted p.dirName with
    | false => rfl
    | true =>
      exfalso
      cases n with
      | zero => cases hn
      | succ n =>
        obtain ⟨cs, h, e⟩ := clean_shape (pathDir p.dirName)
        rw [clean_pathDir, isRooted_pathDir, hr] at e
        rw [isRooted_pathDir, hr] at h
        rw [prefixDirs, if_neg (by rintro e; rw [e] at hr; cases hr), e, prefixDirs_absolute h] at hn
        cases hn
  · intro hr
    obtain ⟨cs, h, e⟩ := clean_shape (pathDir p.dirName)
    rw [clean_pathDir, isRooted_pathDir, hr] at e
    rw [isRooted_pathDir, hr] at h
    refine ⟨cs.length + 1 + 1, ?_⟩
    rw [prefixDirs]
    split
    · rfl
    · rw [e, prefixDirs_render h (by omega)]
      rfl

theorem prefixDirs_succ {n : Nat} : ∀ {s : Str} {a : List Str}, prefixDirs n s = some a → prefixDirs (n + 1) s = some a := by
  induction n with
  | zero => intro s a h; cases h
  | succ n ih =>
    intro s a h
    rw [prefixDirs] at h ⊢
    split
    · rename_i e; rw [if_pos e] at h; exact h
    · rename_i e
      rw [if_neg e] at h
      obtain ⟨b, h1, h2⟩ := Option.map_eq_some_iff.mp h
      rw [ih h1]
      exact congrArg some h2

theorem prefixDirs_render_some {cs : List Str} (h : CleanElems false cs) {n : Nat} {d : List Str} (hd : prefixDirs n (render false cs) = some d) :
    d = (Spec.leading cs).reverse := by
  have : ∀ k, prefixDirs (n + k) (render false cs) = some d := by
    intro k
    induction k with
    | zero => exact hd
    | succ k ih => exact prefixDirs_succ ih
  have h1 := this (cs.length + 1)
  rw [prefixDirs_render h (by omega)] at h1
  exact (Option.some.inj h1).symm

theorem cleanElems_filter {cs : List Str} (h : ['.', '.'] ∉ cs) : cleanElems false cs = cs.filter (fun c => c ≠ [] ∧ c ≠ ['.']) := by
  have : ∀ (cs st : List Str), ['.', '.'] ∉ cs →
      cs.foldl (cleanStep false) st = (cs.filter (fun c => c ≠ [] ∧ c ≠ ['.'])).reverse ++ st := by
    intro cs
    induction cs with
    | nil => intro st _; rfl
    | cons c cs ih =>
      intro st h
      rw [List.foldl_cons, ih _ (fun hm => h (by simp [hm]))]
      unfold cleanStep
      have hc : c ≠ ['.', '.'] := fun e => h (by simp [e])
      by_cases h1 : c = [] ∨ c = ['.']
      · rw [if_pos h1, List.filter_cons_of_neg]
        simp only [decide_eq_true_eq]
        rintro ⟨h2, h3⟩
        rcases h1 with h1 | h1
        · exact h2 h1
        · exact h3 h1
      · rw [if_neg h1, if_neg hc, List.filter_cons_of_pos]
        · simp
        · simp only [decide_eq_true_eq]
          exact ⟨fun e => h1 (Or.inl e), fun e => h1 (Or.inr e)⟩
  unfold cleanElems
  rw [this cs [] h]
  simp

theorem elements_plain {s : Str} (h : ['.', '.'] ∉ split '/' s) : ∀ c ∈ Spec.elements s, Plain c := by
  intro c hc
  obtain ⟨h1, h2⟩ := List.mem_filter.mp hc
  obtain ⟨h3, h4⟩ := of_decide_eq_true h2
  exact ⟨h3, h4, fun e => h (e ▸ h1), split_no_sep h1⟩

theorem elements_join {cs : List Str} (hne : cs ≠ []) (h : ∀ c ∈ cs, Plain c) : Spec.elements (join ['/'] cs) = cs := by
  unfold Spec.elements
  rw [split_join hne (fun c hc => (h c hc).2.2.2), List.filter_eq_self]
  intro c hc
  exact decide_eq_true ⟨(h c hc).1, (h c hc).2.1⟩

theorem plain_clean {cs : List Str} (h : ∀ c ∈ cs, Plain c) : CleanElems false cs := ⟨0, cs, by simp, h, fun _ => rfl⟩

/-- the directory of a relative path without `..`: one element less, unless the last one does not count -/
theorem pathDir_elements {s : Str} (hr : isRooted s = false) (h : ['.', '.'] ∉ split '/' s) :
    ∃ ds, (∀ c ∈ ds, Plain c) ∧ pathDir s = render false ds ∧
      (((split '/' s).getLast? = some [] ∨ (split '/' s).getLast? = some ['.']) ∧ ds = Spec.elements s ∨
       ∃ b, (split '/' s).getLast? = some b ∧ b ≠ [] ∧ b ≠ ['.'] ∧ Spec.elements s = ds ++ [b]) := by
  by_cases hs : '/' ∈ s
  · obtain ⟨a, b, rfl, hb⟩ := last_slash hs
    have hsp : split '/' (a ++ '/' :: b) = split '/' a ++ [b] := by
      rw [split_append, split_none (w := b) (by intro c hc e; subst e; exact hb hc)]
    rw [hsp] at h
    have hane : a ≠ [] := by rintro rfl; simp [isRooted] at hr
    have ha : ['.', '.'] ∉ split '/' a := fun hm => h (by simp [hm])
    have hra : isRooted (a ++ ['/']) = false := by
      rw [isRooted_append hane]; rw [isRooted_append hane] at hr; exact hr
    refine ⟨Spec.elements a, elements_plain ha, ?_, ?_⟩
    · unfold pathDir
      rw [pathSplit_slash hb]
      show clean (a ++ ['/']) = _
      unfold clean
      rw [hra, split_append, split_none (w := []) (by simp), cleanElems_filter (by simpa using ha), List.filter_append]
      simp [Spec.elements]
    · have hel : Spec.elements (a ++ '/' :: b) = Spec.elements a ++ [b].filter (fun c => c ≠ [] ∧ c ≠ ['.']) := by
        unfold Spec.elements
        rw [hsp, List.filter_append]
      rw [hsp, hel]
      simp only [List.getLast?_append, List.getLast?_singleton, Option.some_or, Option.some.injEq]
      by_cases h1 : b = []
      · left; refine ⟨Or.inl h1, ?_⟩; rw [h1]; simp
      · by_cases h2 : b = ['.']
        · left; refine ⟨Or.inr h2, ?_⟩; rw [h2]; simp
        · right; exact ⟨b, rfl, h1, h2, by simp [h1, h2]⟩
  · have hsp : split '/' s = [s] := split_none (fun c hc e => hs (e ▸ hc))
    refine ⟨[], by simp, ?_, ?_⟩
    · unfold pathDir
      rw [pathSplit_none hs]
      rfl
    · unfold Spec.elements
      rw [hsp]
      simp only [List.getLast?_singleton, Option.some.injEq]
      by_cases h1 : s = []
      · left; refine ⟨Or.inl h1, ?_⟩; rw [h1]; simp
      · by_cases h2 : s = ['.']
        · left; refine ⟨Or.inr h2, ?_⟩; rw [h2]; simp
        · right; exact ⟨s, rfl, h1, h2, by simp [h1, h2]⟩

/-- the name of an entry, for every spelling of the prefix -/
theorem entryName_elements {p : Prefix} {rel : Str} (hr : isRooted p.dirName = false) (h : ['.', '.'] ∉ split '/' p.dirName)
    (hcs : Spec.elements p.dirName ≠ []) {rs : List Str} (hrel : rel = join ['/'] rs) (hne : rs ≠ []) (hpl : ∀ c ∈ rs, Plain c) :
    entryName (some p) rel = join ['/'] (Spec.elements p.dirName) ++ '/' :: rel := by
  have hrn : rel ≠ [] := by rw [hrel]; exact join_ne_nil hne (fun c h => (hpl c h).1)
  have hpn : p.dirName ≠ [] := by rintro e; rw [e] at hcs; exact hcs (by decide)
  show pathJoin [p.dirName, rel] = _
  have hq := entryName_prefix (p := { p with dirName := join ['/'] (Spec.elements p.dirName) }) (rel := rel) (rs := rs)
  have hpe := elements_plain h
  have hre : join ['/'] (Spec.elements p.dirName) = render false (Spec.elements p.dirName) := by simp [render, hcs]
  rw [← hq (by show clean (join _ _) = join _ _; rw [hre]; exact clean_render (plain_clean hpe))
    (by show isRooted (join _ _) = false; rw [hre]; exact isRooted_render (fun c hc => ⟨(hpe c hc).1, (hpe c hc).2.2.2⟩))
    (by
      show join _ _ ≠ ['.']
      rw [hre]
      intro e
      exact hcs (render_inj (plain_clean hpe) (show CleanElems false [] from plain_clean (by simp)) (e.trans rfl)).2) hrel hne hpl]
  show _ = pathJoin [join ['/'] (Spec.elements p.dirName), rel]
  have hjn : join ['/'] (Spec.elements p.dirName) ≠ [] := join_ne_nil hcs (fun c hc => (hpe c hc).1)
  unfold pathJoin
  rw [show [p.dirName, rel].filter (· ≠ []) = [p.dirName, rel] by simp [hpn, hrn],
    show [join ['/'] (Spec.elements p.dirName), rel].filter (· ≠ []) = [join ['/'] (Spec.elements p.dirName), rel] by simp [hjn, hrn]]
  show clean (join ['/'] [p.dirName, rel]) = clean (join ['/'] [join ['/'] (Spec.elements p.dirName), rel])
  rw [show join ['/'] [p.dirName, rel] = p.dirName ++ '/' :: rel by simp [join],
    show join ['/'] [join ['/'] (Spec.elements p.dirName), rel] = join ['/'] (Spec.elements p.dirName) ++ '/' :: rel by simp [join]]
  unfold clean
  rw [isRooted_append hpn, isRooted_append hjn, hr, hre, isRooted_render (fun c hc => ⟨(hpe c hc).1, (hpe c hc).2.2.2⟩), ← hre, split_append, split_append, hrel,
    split_join hne (fun c hc => (hpl c hc).2.2.2), cleanElems_append_plain hpl, cleanElems_append_plain hpl, cleanElems_filter h,
    split_join hcs (fun c hc => (hpe c hc).2.2.2), cleanElems_id (plain_clean hpe)]
  rfl

/-- **C59** A relative prefix may be spelled with doubled slashes, a slash at its end and `.` elements (but no `..`).  The layer starts
with the directories leading to it, outermost first (the last one may come twice), all with the prefix's mode and owner; the names
of the entries for the files of the tree are those for the prefix without these. -/
theorem C59_spelling {n : Nat} {accepts : Hdr → Bool} {p : Prefix} {chown : Option Ownership} {zero clamp : Int}
    {walk : List WalkItem} {es : List (Hdr × Bytes)} (hr : p.dirName.head? ≠ some '/') (hdd : ['.', '.'] ∉ split '/' p.dirName)
    (hcs : Spec.elements p.dirName ≠ []) (hw : ∀ w ∈ Spec.tree walk, Spec.InTree w.rel)
    (h : layerFromDir n accepts (some p) chown zero clamp walk = some (.ok es)) :
    ∃ ps ts, es = ps ++ ts ∧
      ps.map (fun e => Spec.elements e.1.name) =
        (List.range (Spec.elements p.dirName).length).map (fun i => (Spec.elements p.dirName).take (i + 1)) ++
        (if (split '/' p.dirName).getLast? = some [] ∨ (split '/' p.dirName).getLast? = some ['.'] then [Spec.elements p.dirName] else []) ∧
      (∀ e ∈ ps, e.1.name.head? ≠ some '/' ∧ ['.', '.'] ∉ split '/' e.1.name ∧ e.1.typeflag = '5' ∧ e.1.mode = (if p.mode = 0 then 0o755 else p.mode) ∧
        e.1.uid = p.owner.uid ∧ e.1.gid = p.owner.gid ∧ e.1.uname = p.owner.uname ∧ e.1.gname = p.owner.gname ∧ e.1.modTime = clamp ∧ e.2 = []) ∧
      ts.map (·.1.name) = (Spec.tree walk).map (fun w => join ['/'] (Spec.elements p.dirName) ++ '/' :: w.rel) := by
  have hr' : isRooted p.dirName = false := by unfold isRooted; simpa using hr
  obtain ⟨ps, ts, h1, h2, rfl⟩ := layerFromDir_ok h
  refine ⟨ps, ts, rfl, ?_⟩
  have hpe := elements_plain hdd
  obtain ⟨dirs, hd, rfl⟩ := prefixEntries_ok h1
  -- the directories
  have hdirs : ∃ ds, (∀ c ∈ ds, Plain c) ∧ dirs.reverse = Spec.leading ds ++ [p.dirName] ∧
      (((split '/' p.dirName).getLast? = some [] ∨ (split '/' p.dirName).getLast? = some ['.']) ∧ ds = Spec.elements p.dirName ∨
       ∃ b, (split '/' p.dirName).getLast? = some b ∧ b ≠ [] ∧ b ≠ ['.'] ∧ Spec.elements p.dirName = ds ++ [b]) := by
    obtain ⟨ds, e1, e2, e3⟩ := pathDir_elements hr' hdd
    refine ⟨ds, e1, ?_, e3⟩
    cases n with
    | zero => cases hd
    | succ n =>
      rw [prefixDirs, if_neg (by rintro e; rw [e] at hcs; exact hcs (by decide))] at hd
      obtain ⟨rest, h3, h4⟩ := Option.map_eq_some_iff.mp hd
      rw [e2] at h3
      rw [← h4, prefixDirs_render_some (plain_clean e1) h3]
      simp
  obtain ⟨ds, e1, e2, e3⟩ := hdirs
  have hlead : ∀ cs : List Str, (∀ c ∈ cs, Plain c) → (Spec.leading cs).map Spec.elements = (List.range cs.length).map (fun i => cs.take (i + 1)) := by
    intro cs hc
    unfold Spec.leading
    rw [List.map_map]
    apply List.map_congr_left
    intro i hi
    rw [List.mem_range] at hi
    refine elements_join ?_ (fun c hm => hc c (List.mem_of_mem_take hm))
    intro e
    have := congrArg List.length e
    simp at this
    rw [this] at hi
    simp at hi
  refine ⟨?_, ?_, ?_⟩
  · rw [e2, List.map_map]
    show (Spec.leading ds ++ [p.dirName]).map Spec.elements = _
    rw [List.map_append, hlead ds e1]
    rcases e3 with ⟨e3, rfl⟩ | ⟨b, e3, e4, e5, e6⟩
    · rw [if_pos e3]; rfl
    · rw [if_neg (by rw [e3]; simp [e4, e5]), e6, List.append_nil, List.length_append, List.length_singleton, List.range_succ, List.map_append]
      congr 1
      · apply List.map_congr_left
        intro i hi
        rw [List.mem_range] at hi
        rw [List.take_append_of_le_length (by omega)]
      · simp [e6, List.take_of_length_le]
  · intro e he
    obtain ⟨d, hm, rfl⟩ := List.mem_map.mp he
    refine ⟨?_, ?_, rfl, rfl, rfl, rfl, rfl, rfl, rfl, rfl⟩
    · show d.head? ≠ some '/'
      rw [e2] at hm
      rcases List.mem_append.mp hm with hm | hm
      · obtain ⟨i, hi, rfl⟩ := List.mem_map.mp hm
        have hpt : ∀ c ∈ ds.take (i + 1), Plain c := fun c hc => e1 c (List.mem_of_mem_take hc)
        rw [List.mem_range] at hi
        have hne : ds.take (i + 1) ≠ [] := by
          intro e
          have := congrArg List.length e
          simp at this
          rw [this] at hi
          simp at hi
        have := isRooted_render (rooted := false) (cs := ds.take (i + 1)) (fun c hc => ⟨(hpt c hc).1, (hpt c hc).2.2.2⟩)
        rw [show render false (ds.take (i + 1)) = join ['/'] (ds.take (i + 1)) by simp only [render, Bool.false_eq_true, if_false, if_neg hne]] at this
        unfold isRooted at this
        simpa using this
      · rw [List.mem_singleton.mp hm]; exact hr
    · show ['.', '.'] ∉ split '/' d
      rw [e2] at hm
      rcases List.mem_append.mp hm with hm | hm
      · obtain ⟨i, hi, rfl⟩ := List.mem_map.mp hm
        have hpt : ∀ c ∈ ds.take (i + 1), Plain c := fun c hc => e1 c (List.mem_of_mem_take hc)
        rw [List.mem_range] at hi
        have hne : ds.take (i + 1) ≠ [] := by
          intro e
          have := congrArg List.length e
          simp at this
          rw [this] at hi
          simp at hi
        rw [split_join hne (fun c hc => (hpt c hc).2.2.2)]
        intro hc
        exact (hpt _ hc).2.2.1 rfl
      · rw [List.mem_singleton.mp hm]; exact hdd
  · obtain ⟨hl, hg⟩ := walkEntries_get h2
    apply List.ext_getElem (by simp [hl])
    intro i hi1 hi2
    rw [List.length_map] at hi1 hi2
    rw [List.getElem_map, List.getElem_map]
    have hmem := List.getElem_mem hi2
    obtain ⟨_, _, h4⟩ := walkEntry_ok (hg i hi1 hi2)
    have hnd : (Spec.tree walk)[i].rel ≠ ['.'] := of_decide_eq_true (List.mem_filter.mp hmem).2
    obtain ⟨info, x, b, _, hrl, he, _⟩ := h4 hnd
    rw [Option.some.injEq] at he
    rw [he]
    have hx : x.name = entryName (some p) (Spec.tree walk)[i].rel := by
      have := readLink_ok hrl
      by_cases ht : (hardLink ([] ++ ((Spec.tree walk).take i).map (fun w => (entryName (some p) w.rel, w.file))) (Spec.tree walk)[i].file
          { info with name := entryName (some p) (Spec.tree walk)[i].rel }).typeflag = typeSymlink
      · obtain ⟨_, _, e⟩ := this.2 ht
        rw [e]; exact hardLink_name _ _ _
      · rw [this.1 ht]; exact hardLink_name _ _ _
    show x.name = _
    rw [hx]
    obtain ⟨rs, hne, hpl', hrel⟩ := hw _ hmem
    exact entryName_elements hr' hdd hcs hrel hne hpl'

/-- `usr//local/./bin/` -/
def spelledPrefix : Prefix := ⟨"usr//local/./bin/".toList, 0, ⟨0, "root".toList, 0, "root".toList⟩⟩

example : spelledPrefix.dirName.head? ≠ some '/' ∧ ['.', '.'] ∉ split '/' spelledPrefix.dirName ∧
    Spec.elements spelledPrefix.dirName = ["usr".toList, "local".toList, "bin".toList] ∧
    (layerFromDir 6 (fun _ => true) (some spelledPrefix) none 0 5 ownedWalk).map (fun r => r.map (fun es => es.map (·.1.name))) =
      some (.ok ["usr".toList, "usr/local".toList, "usr/local/bin".toList, "usr//local/./bin/".toList, "usr/local/bin/f".toList]) := by
  decide +kernel

/-- with `..` the layer can get a directory that does not lead to the files: `a/b/..` makes `a/b` -/
example : (layerFromDir 6 (fun _ => true) (some { spelledPrefix with dirName := "a/b/..".toList }) none 0 5 ownedWalk).map
    (fun r => r.map (fun es => es.map (·.1.name))) = some (.ok ["a".toList, "a/b".toList, "a/b/..".toList, "a/f".toList]) := by
  decide +kernel

end Fsutil
