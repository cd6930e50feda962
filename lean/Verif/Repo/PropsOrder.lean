import Verif.Repo.PropsSelect

/-! C115: which wheel `SelectWheel` picks, for two listings of the same files in a different order. -/

namespace Repo
open Go Bdist Pep440 Pep440.Spec

theorem Usable.perm {tags : List Pep425.Tag} {links links' : List Link} (hp : links.Perm links') {l : Link}
    {i : FileNameData} : Usable tags links l i ↔ Usable tags links' l i := by
  unfold Usable; rw [hp.mem_iff]

theorem YankedVersion.perm {tags : List Pep425.Tag} {links links' : List Link} (hp : links.Perm links') {v : Ver} :
    YankedVersion tags links v ↔ YankedVersion tags links' v := by
  unfold YankedVersion; simp only [Usable.perm hp]

theorem Preferred.perm {tags : List Pep425.Tag} {links links' : List Link} (hp : links.Perm links') {v : Ver} :
    Preferred tags links v ↔ Preferred tags links' v := by
  unfold Preferred; rw [YankedVersion.perm hp]

theorem cmpVer_antisymm {a b : Ver} (h : cmpVer a b ≠ .lt) (h' : cmpVer b a ≠ .lt) : cmpVer a b = .eq := by
  rw [Std.OrientedCmp.eq_swap (cmp := cmpVer)] at h'
  cases hc : cmpVer a b <;> simp_all

theorem buildOrder_antisymm {a b : Option BuildTag} (h : buildOrder a b ≠ .lt) (h' : buildOrder b a ≠ .lt) : a = b := by
  cases a with
  | none => cases b with
    | none => rfl
    | some b => exact absurd rfl h
  | some a => cases b with
    | none => exact absurd rfl h'
    | some b =>
      obtain ⟨ai, as⟩ := a
      obtain ⟨bi, bs⟩ := b
      simp only [buildOrder] at h h'
      have hi : ai = bi := by
        rcases Int.lt_trichotomy ai bi with hlt | he | hlt
        · exfalso; apply h; rw [(Int.compare_eq_lt).mpr hlt]; rfl
        · exact he
        · exfalso; apply h'; rw [(Int.compare_eq_lt).mpr hlt]; rfl
      subst hi
      have e : compare ai ai = .eq := Std.ReflCmp.compare_self
      rw [e] at h h'
      simp only [Ordering.then] at h h'
      rw [Std.OrientedCmp.eq_swap (cmp := List.compareLex compare)] at h'
      have hc : List.compareLex compare as bs = .eq := by
        cases hc : List.compareLex compare as bs <;> simp_all
      have := Std.LawfulEqCmp.eq_of_compare hc
      rw [this]

/-- C115 (partial): if no two usable files have versions that compare equal but are spelled differently, then whatever
order the index lists the files in, and however `sort.Slice` breaks ties, `SelectWheel` fails for both listings or
returns, for both, files of the same version, with equally preferred tags and the same build tag. -/
theorem C115_order_partial {sort sort' : (Link → Link → Bool) → List Link → List Link} (hp : SortSlice sort)
    (hp' : SortSlice sort') {tags : List Pep425.Tag} {links links' : List Link} (hperm : links.Perm links')
    {spec : Specifier} (hs : ∀ c ∈ spec, WFClause c)
    (hw : ∀ l info, Usable tags links l info → WF info.version)
    (hd : ∀ l i l' i', Usable tags links l i → Usable tags links l' i' → cmpVer i.version i'.version = .eq →
      i.version = i'.version) :
    (selectWheel sort tags links spec = some (.error ()) ∧ selectWheel sort' tags links' spec = some (.error ())) ∨
    ∃ l l' i i', selectWheel sort tags links spec = some (.ok l) ∧ selectWheel sort' tags links' spec = some (.ok l') ∧
      parseFilename l.text = .ok i ∧ parseFilename l'.text = .ok i' ∧ i.version = i'.version ∧
      Pep425.preference tags i.tag = Pep425.preference tags i'.tag ∧ i.build = i'.build := by
  have hw' : ∀ l info, Usable tags links' l info → WF info.version := fun l i h => hw l i ((Usable.perm hperm).mpr h)
  obtain ⟨r, hr, he, ho⟩ := C34_exact_partial hp.perm hs hw
  obtain ⟨r', hr', he', ho'⟩ := C34_exact_partial hp'.perm hs hw'
  simp only [← Usable.perm hperm, ← Preferred.perm hperm] at he' ho'
  cases r with
  | error e =>
    cases e
    have := he'.mpr (he.mp rfl)
    subst this
    exact Or.inl ⟨hr, hr'⟩
  | ok l =>
    cases r' with
    | error e =>
      cases e
      have := he.mpr (he'.mp rfl)
      cases this
    | ok l' =>
      obtain ⟨i, hU, hm, hpre, hnopre⟩ := ho l rfl
      obtain ⟨i', hU', hm', hpre', hnopre'⟩ := ho' l' rfl
      have hv : i.version = i'.version := by
        apply hd l i l' i' hU hU'
        by_cases hc : ∃ l' i', Usable tags links l' i' ∧ specMatch spec i'.version = some true ∧
            Preferred tags links i'.version
        · exact cmpVer_antisymm ((hpre hc).2 l' i' hU' hm' (hpre' hc).1) ((hpre' hc).2 l i hU hm (hpre hc).1)
        · have hc' : ∀ l' i', Usable tags links l' i' → specMatch spec i'.version = some true →
              ¬ Preferred tags links i'.version := fun a b h1 h2 h3 => hc ⟨a, b, h1, h2, h3⟩
          exact cmpVer_antisymm (hnopre hc' l' i' hU' hm') (hnopre' hc' l i hU hm)
      obtain ⟨j, h1, h2, h3, h4, hmin⟩ := C33_selected_wheel_partial hp.perm hr
      have := hU.2.1.symm.trans h2; injection this with this; subst this
      obtain ⟨j', h1', h2', h3', h4', hmin'⟩ := C33_selected_wheel_partial hp'.perm hr'
      have := hU'.2.1.symm.trans h2'; injection this with this; subst this
      have hpref : Pep425.preference tags i.tag = Pep425.preference tags i'.tag := by
        have a := hmin l' hU'.1 i' h2' h3' hv.symm
        have b := hmin' l (hperm.mem_iff.mp hU.1) i h2 h3 hv
        omega
      obtain ⟨k, hk, hb⟩ := C35_lowest_build_partial hp hr
      have := hU.2.1.symm.trans hk.2.1; injection this with this; subst this
      obtain ⟨k', hk', hb'⟩ := C35_lowest_build_partial hp' hr'
      have := hU'.2.1.symm.trans hk'.2.1; injection this with this; subst this
      exact Or.inr ⟨l, l', i, i', hr, hr', h2, h2', hv, hpref,
        buildOrder_antisymm (hb' l i ((Usable.perm hperm).mp hU) hv hpref) (hb l' i' hU' hv.symm hpref.symm)⟩

/-- C115 (partial): if moreover no two usable files share version, tag preference and build tag, the very same file is
returned for every order of the listing. -/
theorem C115_same_file_partial {sort sort' : (Link → Link → Bool) → List Link → List Link} (hp : SortSlice sort)
    (hp' : SortSlice sort') {tags : List Pep425.Tag} {links links' : List Link} (hperm : links.Perm links')
    {spec : Specifier} (hs : ∀ c ∈ spec, WFClause c)
    (hw : ∀ l info, Usable tags links l info → WF info.version)
    (hd : ∀ l i l' i', Usable tags links l i → Usable tags links l' i' → cmpVer i.version i'.version = .eq →
      i.version = i'.version)
    (hu : ∀ l i l' i', Usable tags links l i → Usable tags links l' i' → i.version = i'.version →
      Pep425.preference tags i.tag = Pep425.preference tags i'.tag → i.build = i'.build → l = l') :
    selectWheel sort tags links spec = selectWheel sort' tags links' spec := by
  rcases C115_order_partial hp hp' hperm hs hw hd with ⟨h, h'⟩ | ⟨l, l', i, i', h, h', hi, hi', hv, hpf, hb⟩
  · rw [h, h']
  · obtain ⟨k, hk, _⟩ := C35_lowest_build_partial hp h
    have := hi.symm.trans hk.2.1; injection this with this; subst this
    obtain ⟨k', hk', _⟩ := C35_lowest_build_partial hp' h'
    have := hi'.symm.trans hk'.2.1; injection this with this; subst this
    rw [h, h', hu l i l' i' hk ((Usable.perm hperm).mpr hk') hv hpf hb]

/-- the hypotheses of both theorems are met: a yanked file and a plain one, listed in either order -/
example : (∀ l info, Usable [exTag "py3" "none" "any"] [exYanked, exLink "foo-1.5-py3-none-any.whl"] l info → WF info.version) ∧
    (∀ l i l' i', Usable [exTag "py3" "none" "any"] [exYanked, exLink "foo-1.5-py3-none-any.whl"] l i →
      Usable [exTag "py3" "none" "any"] [exYanked, exLink "foo-1.5-py3-none-any.whl"] l' i' →
      (cmpVer i.version i'.version = .eq → i.version = i'.version) ∧ (i.version = i'.version → l = l')) := by
  have e1 : parseFilename exYanked.text = .ok (exInfo [2, 0]) := by decide +kernel
  have e2 : parseFilename (exLink "foo-1.5-py3-none-any.whl").text = .ok (exInfo [1, 5]) := by decide +kernel
  have cases : ∀ l info, Usable [exTag "py3" "none" "any"] [exYanked, exLink "foo-1.5-py3-none-any.whl"] l info →
      (l = exYanked ∧ info = exInfo [2, 0]) ∨ (l = exLink "foo-1.5-py3-none-any.whl" ∧ info = exInfo [1, 5]) := by
    rintro l info ⟨h1, h2, -⟩
    simp only [List.mem_cons, List.not_mem_nil, or_false] at h1
    rcases h1 with rfl | rfl
    · rw [e1] at h2; injection h2 with h2; exact Or.inl ⟨rfl, h2.symm⟩
    · rw [e2] at h2; injection h2 with h2; exact Or.inr ⟨rfl, h2.symm⟩
  refine ⟨?_, ?_⟩
  · intro l info hU
    rcases cases l info hU with ⟨-, rfl⟩ | ⟨-, rfl⟩
    · exact exInfo_wf 2 0 (by decide) (by decide)
    · exact exInfo_wf 1 5 (by decide) (by decide)
  · intro l i l' i' hU hU'
    rcases cases l i hU with ⟨rfl, rfl⟩ | ⟨rfl, rfl⟩ <;> rcases cases l' i' hU' with ⟨rfl, rfl⟩ | ⟨rfl, rfl⟩
    · exact ⟨fun _ => rfl, fun _ => rfl⟩
    · exact ⟨fun h => absurd h (by decide +kernel), fun h => absurd h (by decide +kernel)⟩
    · exact ⟨fun h => absurd h (by decide +kernel), fun h => absurd h (by decide +kernel)⟩
    · exact ⟨fun _ => rfl, fun _ => rfl⟩

example : selectWheel insertionSort [exTag "py3" "none" "any"] [exYanked, exLink "foo-1.5-py3-none-any.whl"] [] =
      some (.ok (exLink "foo-1.5-py3-none-any.whl")) ∧
    selectWheel insertionSort [exTag "py3" "none" "any"] [exLink "foo-1.5-py3-none-any.whl", exYanked] [] =
      some (.ok (exLink "foo-1.5-py3-none-any.whl")) := by decide +kernel

/-- C115 is violated in general: the same two files, listed in the two possible orders, give different files, of which
one has a less preferred tag.  The versions `1.0` and `1.0.0` compare equal, and the first one listed is taken. -/
theorem C115_violated : ∃ (tags : List Pep425.Tag) (links links' : List Link), links.Perm links' ∧
    ∀ sort : (Link → Link → Bool) → List Link → List Link, SortSlice sort →
      selectWheel sort tags links [] = some (.ok (exLink "foo-1.0-py3-none-any.whl")) ∧
      selectWheel sort tags links' [] = some (.ok (exLink "foo-1.0.0-cp39-cp39-linux.whl")) := by
  refine ⟨[exTag "cp39" "cp39" "linux", exTag "py3" "none" "any"],
    [exLink "foo-1.0-py3-none-any.whl", exLink "foo-1.0.0-cp39-cp39-linux.whl"],
    [exLink "foo-1.0.0-cp39-cp39-linux.whl", exLink "foo-1.0-py3-none-any.whl"], List.Perm.swap _ _ _, ?_⟩
  intro sort _
  have h1 : usable [exTag "cp39" "cp39" "linux", exTag "py3" "none" "any"]
      [exLink "foo-1.0-py3-none-any.whl", exLink "foo-1.0.0-cp39-cp39-linux.whl"] =
      some [("1.0".toList, exLink "foo-1.0-py3-none-any.whl", (exInfo [1, 0]).version),
        ("1.0.0".toList, exLink "foo-1.0.0-cp39-cp39-linux.whl", (exInfo [1, 0, 0]).version)] := by decide +kernel
  have h2 : yankedVersions [exLink "foo-1.0-py3-none-any.whl", exLink "foo-1.0.0-cp39-cp39-linux.whl"] = some [] := by
    decide +kernel
  have h3 : select [] [(exInfo [1, 0]).version, (exInfo [1, 0, 0]).version]
      (some (multiExcluder [excludePreReleases [], yankedAllow []])) = some (some (exInfo [1, 0]).version) := by
    decide +kernel
  have h4 : (exInfo [1, 0]).version.string = some "1.0".toList := by decide +kernel
  have g1 : usable [exTag "cp39" "cp39" "linux", exTag "py3" "none" "any"]
      [exLink "foo-1.0.0-cp39-cp39-linux.whl", exLink "foo-1.0-py3-none-any.whl"] =
      some [("1.0.0".toList, exLink "foo-1.0.0-cp39-cp39-linux.whl", (exInfo [1, 0, 0]).version),
        ("1.0".toList, exLink "foo-1.0-py3-none-any.whl", (exInfo [1, 0]).version)] := by decide +kernel
  have g2 : yankedVersions [exLink "foo-1.0.0-cp39-cp39-linux.whl", exLink "foo-1.0-py3-none-any.whl"] = some [] := by
    decide +kernel
  have g3 : select [] [(exInfo [1, 0, 0]).version, (exInfo [1, 0]).version]
      (some (multiExcluder [excludePreReleases [], yankedAllow []])) = some (some (exInfo [1, 0, 0]).version) := by
    decide +kernel
  have g4 : (exInfo [1, 0, 0]).version.string = some "1.0.0".toList := by decide +kernel
  constructor
  · unfold selectWheel
    rw [h1]
    simp only [List.map_cons, List.map_nil, h2]
    rw [h3]
    simp only [h4]
    rfl
  · unfold selectWheel
    rw [g1]
    simp only [List.map_cons, List.map_nil, g2]
    rw [g3]
    simp only [g4]
    rfl

end Repo
