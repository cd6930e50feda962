import Verif.Repo.PropsOrder

/-! C137: versions and files that are not selected do not matter for the selection. -/

namespace Repo
open Go Bdist Pep440 Pep440.Spec

/-- C137, for `Select`: if it returns `x`, then it returns the same version (as versions compare) for every part of the choices that still has
`x`: the choices that were not selected may be removed, repeated and put in any order. -/
theorem C137_select {spec : Specifier} {choices choices' : List Ver} {ex : Option Excl}
    (hs : ∀ c ∈ spec, WFClause c) (hc : ∀ v ∈ choices, WF v)
    (hex : ∀ f, ex = some f → ∀ v ∈ choices, f v ≠ none) {x : Ver} (h : select spec choices ex = some (some x))
    (hsub : ∀ v ∈ choices', v ∈ choices) (hx : x ∈ choices') :
    ∃ y, select spec choices' ex = some (some y) ∧ y ∈ choices ∧ x.cmp y = some 0 := by
  have hc' : ∀ v ∈ choices', WF v := fun v hv => hc v (hsub v hv)
  have hex' : ∀ f, ex = some f → ∀ v ∈ choices', f v ≠ none := fun f hf v hv => hex f hf v (hsub v hv)
  obtain ⟨r, hr, -, hr2⟩ := C19_select_membership hs hc hex
  rw [h] at hr; injection hr with hr; subst hr
  obtain ⟨hxin, hxm⟩ := hr2 x rfl
  obtain ⟨r', hr', hn', hr2'⟩ := C19_select_membership hs hc' hex'
  cases r' with
  | none =>
    have := hn'.mp rfl x hx
    rw [hxm] at this; cases this
  | some y =>
    obtain ⟨hyin, hym⟩ := hr2' y rfl
    refine ⟨y, hr', hsub y hyin, ?_⟩
    obtain ⟨a1, a2, a3⟩ := C20_select_preference_partial hs hc hex x h
    obtain ⟨b1, b2, b3⟩ := C20_select_preference_partial hs hc' hex' y hr'
    have key : cmpVer x y ≠ .lt ∧ cmpVer y x ≠ .lt := by
      cases ex with
      | none => exact ⟨a1 rfl y (hsub y hyin) hym, b1 rfl x hx hxm⟩
      | some f =>
        by_cases hd : ∃ z ∈ choices, specMatch spec z = some true ∧ f z = some false
        · obtain ⟨hfx, hmax⟩ := a2 f rfl hd
          obtain ⟨hfy, hmax'⟩ := b2 f rfl ⟨x, hx, hxm, hfx⟩
          exact ⟨hmax y (hsub y hyin) hym hfy, hmax' x hx hxm hfx⟩
        · have hall : ∀ z ∈ choices, specMatch spec z = some true → f z = some true := by
            intro z hz hzm
            rcases hfz : f z with _ | (_ | _)
            · exact absurd hfz (hex f rfl z hz)
            · exact absurd ⟨z, hz, hzm, hfz⟩ hd
            · rfl
          exact ⟨(a3 f rfl hall).2 y (hsub y hyin) hym,
            (b3 f rfl (fun z hz => hall z (hsub z hz))).2 x hx hxm⟩
    have e := cmpVer_antisymm key.1 key.2
    obtain ⟨d, hd, hsd⟩ := cmpVer_spec (hc x hxin) (hc' y hyin)
    rw [e, ordOf_eq_eq] at hsd
    rw [hd, hsd]

/-- the hypotheses are met: of two versions the later is selected, also without the other one -/
example : (∀ v ∈ [sample, sampleRc], WF v) ∧ select [⟨.ge, sampleRc⟩] [sampleRc, sample] none = some (some sample) ∧
    select [⟨.ge, sampleRc⟩] [sample] none = some (some sample) :=
  ⟨by simp [sample_wf, sampleRc_wf], by decide +kernel, by decide +kernel⟩

theorem Usable.sub {tags : List Pep425.Tag} {links links' : List Link} (hsub : ∀ l ∈ links', l ∈ links) {l : Link}
    {i : FileNameData} (h : Usable tags links' l i) : Usable tags links l i := ⟨hsub l h.1, h.2⟩

theorem Preferred.sub {tags : List Pep425.Tag} {links links' : List Link} (hsub : ∀ l ∈ links', l ∈ links)
    (hy : ∀ l ∈ links, (l.attr "data-yanked".toList).isSome → l ∈ links') {v : Ver} :
    Preferred tags links v ↔ Preferred tags links' v := by
  have : YankedVersion tags links v ↔ YankedVersion tags links' v := by
    constructor
    · rintro ⟨l, i, hU, hv, hl⟩
      exact ⟨l, i, ⟨hy l hU.1 hl, hU.2⟩, hv, hl⟩
    · rintro ⟨l, i, hU, hv, hl⟩
      exact ⟨l, i, hU.sub hsub, hv, hl⟩
  unfold Preferred
  rw [this]

/-- C137 (partial), for `SelectWheel`: if it returns `l`, then for every part of the files that still has `l` and all yanked files, in any
order, it returns a file of the same version, with equally preferred tags and the same build tag.  This needs that no two usable files
have versions that compare equal but are spelled differently (`C137_violated_spelling`), and that yanked files stay
(`C137_violated_yanked`). -/
theorem C137_wheel_partial {sort sort' : (Link → Link → Bool) → List Link → List Link} (hp : SortSlice sort)
    (hp' : SortSlice sort') {tags : List Pep425.Tag} {links links' : List Link}
    {spec : Specifier} (hs : ∀ c ∈ spec, WFClause c)
    (hw : ∀ l info, Usable tags links l info → WF info.version)
    (hd : ∀ l i l' i', Usable tags links l i → Usable tags links l' i' → cmpVer i.version i'.version = .eq →
      i.version = i'.version)
    {l : Link} (h : selectWheel sort tags links spec = some (.ok l))
    (hsub : ∀ l' ∈ links', l' ∈ links) (hl : l ∈ links')
    (hy : ∀ l' ∈ links, (l'.attr "data-yanked".toList).isSome → l' ∈ links') :
    ∃ l' i i', selectWheel sort' tags links' spec = some (.ok l') ∧ l' ∈ links ∧
      parseFilename l.text = .ok i ∧ parseFilename l'.text = .ok i' ∧ i.version = i'.version ∧
      Pep425.preference tags i.tag = Pep425.preference tags i'.tag ∧ i.build = i'.build := by
  have hw' : ∀ l info, Usable tags links' l info → WF info.version := fun l i h => hw l i (h.sub hsub)
  obtain ⟨r, hr, he, ho⟩ := C34_exact_partial hp.perm hs hw
  rw [h] at hr; injection hr with hr; subst hr
  obtain ⟨i, hU, hm, hpre, hnopre⟩ := ho l rfl
  have hUl : Usable tags links' l i := ⟨hl, hU.2⟩
  obtain ⟨r', hr', he', ho'⟩ := C34_exact_partial hp'.perm hs hw'
  cases r' with
  | error e =>
    cases e
    have := he'.mp rfl l i hUl
    rw [hm] at this; cases this
  | ok l' =>
    obtain ⟨i', hU', hm', hpre', hnopre'⟩ := ho' l' rfl
    simp only [← Preferred.sub hsub hy] at hpre' hnopre'
    have hU'' := hU'.sub hsub
    have hv : i.version = i'.version := by
      apply hd l i l' i' hU hU''
      by_cases hc : ∃ l' i', Usable tags links l' i' ∧ specMatch spec i'.version = some true ∧
          Preferred tags links i'.version
      · have hpl := (hpre hc).1
        have hc' := hpre' ⟨l, i, hUl, hm, hpl⟩
        exact cmpVer_antisymm ((hpre hc).2 l' i' hU'' hm' hc'.1) (hc'.2 l i hUl hm hpl)
      · have hc' : ∀ l' i', Usable tags links l' i' → specMatch spec i'.version = some true →
            ¬ Preferred tags links i'.version := fun a b h1 h2 h3 => hc ⟨a, b, h1, h2, h3⟩
        exact cmpVer_antisymm (hnopre hc' l' i' hU'' hm')
          (hnopre' (fun a b h1 => hc' a b (h1.sub hsub)) l i hUl hm)
    obtain ⟨j, h1, h2, h3, h4, hmin⟩ := C33_selected_wheel_partial hp.perm h
    have := hU.2.1.symm.trans h2; injection this with this; subst this
    obtain ⟨j', h1', h2', h3', h4', hmin'⟩ := C33_selected_wheel_partial hp'.perm hr'
    have := hU'.2.1.symm.trans h2'; injection this with this; subst this
    have hpref : Pep425.preference tags i.tag = Pep425.preference tags i'.tag := by
      have a := hmin l' hU''.1 i' h2' h3' hv.symm
      have b := hmin' l hl i h2 h3 hv
      omega
    obtain ⟨k, hk, hb⟩ := C35_lowest_build_partial hp h
    have := hU.2.1.symm.trans hk.2.1; injection this with this; subst this
    obtain ⟨k', hk', hb'⟩ := C35_lowest_build_partial hp' hr'
    have := hU'.2.1.symm.trans hk'.2.1; injection this with this; subst this
    exact ⟨l', i, i', hr', hU''.1, h2, h2', hv, hpref,
      buildOrder_antisymm (hb' l i hUl hv hpref) (hb l' i' hU'' hv.symm hpref.symm)⟩

/-- C137 (partial): if moreover no two usable files share version, tag preference and build tag, it is the very same file. -/
theorem C137_same_file_partial {sort sort' : (Link → Link → Bool) → List Link → List Link} (hp : SortSlice sort)
    (hp' : SortSlice sort') {tags : List Pep425.Tag} {links links' : List Link}
    {spec : Specifier} (hs : ∀ c ∈ spec, WFClause c)
    (hw : ∀ l info, Usable tags links l info → WF info.version)
    (hd : ∀ l i l' i', Usable tags links l i → Usable tags links l' i' → cmpVer i.version i'.version = .eq →
      i.version = i'.version)
    (hu : ∀ l i l' i', Usable tags links l i → Usable tags links l' i' → i.version = i'.version →
      Pep425.preference tags i.tag = Pep425.preference tags i'.tag → i.build = i'.build → l = l')
    {l : Link} (h : selectWheel sort tags links spec = some (.ok l))
    (hsub : ∀ l' ∈ links', l' ∈ links) (hl : l ∈ links')
    (hy : ∀ l' ∈ links, (l'.attr "data-yanked".toList).isSome → l' ∈ links') :
    selectWheel sort' tags links' spec = some (.ok l) := by
  obtain ⟨l', i, i', h', hin, hi, hi', hv, hpf, hb⟩ := C137_wheel_partial hp hp' hs hw hd h hsub hl hy
  obtain ⟨k, hk, _⟩ := C35_lowest_build_partial hp h
  have := hi.symm.trans hk.2.1; injection this with this; subst this
  obtain ⟨k', hk', _⟩ := C35_lowest_build_partial hp' h'
  have := hi'.symm.trans hk'.2.1; injection this with this; subst this
  rw [h', hu l i l' i' hk (hk'.sub hsub) hv hpf hb]

/-- C137 (partial): when a file is published that is not yanked, `SelectWheel` takes either that file, or what it took before. -/
theorem C137_publish_partial {sort : (Link → Link → Bool) → List Link → List Link} (hp : SortSlice sort)
    {tags : List Pep425.Tag} {before after : List Link} {new : Link}
    {spec : Specifier} (hs : ∀ c ∈ spec, WFClause c)
    (hw : ∀ l info, Usable tags (before ++ new :: after) l info → WF info.version)
    (hd : ∀ l i l' i', Usable tags (before ++ new :: after) l i → Usable tags (before ++ new :: after) l' i' →
      cmpVer i.version i'.version = .eq → i.version = i'.version)
    (hu : ∀ l i l' i', Usable tags (before ++ new :: after) l i → Usable tags (before ++ new :: after) l' i' →
      i.version = i'.version → Pep425.preference tags i.tag = Pep425.preference tags i'.tag → i.build = i'.build → l = l')
    (hn : (new.attr "data-yanked".toList).isSome = false) :
    selectWheel sort tags (before ++ new :: after) spec = some (.ok new) ∨
    selectWheel sort tags (before ++ new :: after) spec = selectWheel sort tags (before ++ after) spec := by
  have hsub : ∀ l ∈ before ++ after, l ∈ before ++ new :: after := by
    intro l hl; rw [List.mem_append] at hl; rw [List.mem_append, List.mem_cons]
    rcases hl with h | h
    · exact Or.inl h
    · exact Or.inr (Or.inr h)
  have hback : ∀ l ∈ before ++ new :: after, l = new ∨ l ∈ before ++ after := by
    intro l hl; rw [List.mem_append, List.mem_cons] at hl; rw [List.mem_append]
    rcases hl with h | h | h
    · exact Or.inr (Or.inl h)
    · exact Or.inl h
    · exact Or.inr (Or.inr h)
  obtain ⟨r, hr, he, ho⟩ := C34_exact_partial hp.perm hs hw
  cases r with
  | error e =>
    cases e
    right
    obtain ⟨r', hr', he', -⟩ := C34_exact_partial hp.perm (tags := tags) (links := before ++ after) hs
      (fun l i h => hw l i (h.sub hsub))
    have := he'.mpr (fun l i h => he.mp rfl l i (h.sub hsub))
    rw [hr, hr', this]
  | ok l =>
    obtain ⟨i, hU, -⟩ := ho l rfl
    rcases hback l hU.1 with rfl | hl
    · exact Or.inl hr
    · right
      rw [hr]
      exact (C137_same_file_partial hp hp hs hw hd hu hr hsub hl (by
        intro l' hl' hyl
        rcases hback l' hl' with rfl | h
        · rw [hn] at hyl; cases hyl
        · exact h)).symm

/-- the hypotheses of the three theorems are met: a yanked file, and two plain ones of which the later is taken -/
example : (∀ l info, Usable [exTag "py3" "none" "any"]
        [exYanked, exLink "foo-1.0-py3-none-any.whl", exLink "foo-1.5-py3-none-any.whl"] l info → WF info.version) ∧
    (∀ l i l' i', Usable [exTag "py3" "none" "any"]
        [exYanked, exLink "foo-1.0-py3-none-any.whl", exLink "foo-1.5-py3-none-any.whl"] l i →
      Usable [exTag "py3" "none" "any"]
        [exYanked, exLink "foo-1.0-py3-none-any.whl", exLink "foo-1.5-py3-none-any.whl"] l' i' →
      (cmpVer i.version i'.version = .eq → i.version = i'.version) ∧ (i.version = i'.version → l = l')) ∧
    ((exLink "foo-1.0-py3-none-any.whl").attr "data-yanked".toList).isSome = false ∧
    selectWheel insertionSort [exTag "py3" "none" "any"]
        [exYanked, exLink "foo-1.0-py3-none-any.whl", exLink "foo-1.5-py3-none-any.whl"] [] =
      some (.ok (exLink "foo-1.5-py3-none-any.whl")) ∧
    selectWheel insertionSort [exTag "py3" "none" "any"] [exYanked, exLink "foo-1.5-py3-none-any.whl"] [] =
      some (.ok (exLink "foo-1.5-py3-none-any.whl")) := by
  have e1 : parseFilename exYanked.text = .ok (exInfo [2, 0]) := by decide +kernel
  have e2 : parseFilename (exLink "foo-1.0-py3-none-any.whl").text = .ok (exInfo [1, 0]) := by decide +kernel
  have e3 : parseFilename (exLink "foo-1.5-py3-none-any.whl").text = .ok (exInfo [1, 5]) := by decide +kernel
  have cases : ∀ l info, Usable [exTag "py3" "none" "any"]
        [exYanked, exLink "foo-1.0-py3-none-any.whl", exLink "foo-1.5-py3-none-any.whl"] l info →
      (l = exYanked ∧ info = exInfo [2, 0]) ∨ (l = exLink "foo-1.0-py3-none-any.whl" ∧ info = exInfo [1, 0]) ∨
      (l = exLink "foo-1.5-py3-none-any.whl" ∧ info = exInfo [1, 5]) := by
    rintro l info ⟨h1, h2, -⟩
    simp only [List.mem_cons, List.not_mem_nil, or_false] at h1
    rcases h1 with rfl | rfl | rfl
    · rw [e1] at h2; injection h2 with h2; exact Or.inl ⟨rfl, h2.symm⟩
    · rw [e2] at h2; injection h2 with h2; exact Or.inr (Or.inl ⟨rfl, h2.symm⟩)
    · rw [e3] at h2; injection h2 with h2; exact Or.inr (Or.inr ⟨rfl, h2.symm⟩)
  refine ⟨?_, ?_, by decide +kernel, by decide +kernel, by decide +kernel⟩
  · intro l info hU
    rcases cases l info hU with ⟨-, rfl⟩ | ⟨-, rfl⟩ | ⟨-, rfl⟩
    · exact exInfo_wf 2 0 (by decide) (by decide)
    · exact exInfo_wf 1 0 (by decide) (by decide)
    · exact exInfo_wf 1 5 (by decide) (by decide)
  · intro l i l' i' hU hU'
    rcases cases l i hU with ⟨rfl, rfl⟩ | ⟨rfl, rfl⟩ | ⟨rfl, rfl⟩ <;>
      rcases cases l' i' hU' with ⟨rfl, rfl⟩ | ⟨rfl, rfl⟩ | ⟨rfl, rfl⟩ <;>
      first
      | exact ⟨fun h => absurd h (by decide +kernel), fun h => absurd h (by decide +kernel)⟩
      | exact ⟨fun _ => rfl, fun _ => rfl⟩

theorem selectWheel_eq {sort : (Link → Link → Bool) → List Link → List Link} {tags : List Pep425.Tag} {links : List Link}
    {spec : Specifier} {us : List (Str × Link × Ver)} {ys : List Str} {sel : Ver} {key : Str}
    (h1 : usable tags links = some us) (h2 : yankedVersions (us.map (·.2.1)) = some ys)
    (h3 : select spec (us.map (·.2.2)) (some (multiExcluder [excludePreReleases [], yankedAllow ys])) = some (some sel))
    (h4 : sel.string = some key) :
    selectWheel sort tags links spec = pickRank sort tags ((us.filter (fun u => u.1 = key)).map (·.2.1)) := by
  unfold selectWheel
  rw [h1]; simp only; rw [h2]; simp only; rw [h3]; simp only; rw [h4]

/-- a platform, and the files of a project: of version 2.0 one file is yanked and one is not -/
def exTags2 : List Pep425.Tag := [exTag "cp39" "cp39" "linux", exTag "py3" "none" "any"]
def exYankedLinux : Link := ⟨"foo-2.0-cp39-cp39-linux.whl".toList, [], [("data-yanked".toList, [])]⟩

/-- C137 is violated: yanking counts for a version, not for a file.  As long as the yanked file is listed version 1.0 is taken; without
that file, which was not and would not be taken, it is 2.0. -/
theorem C137_violated_yanked : ∀ sort : (Link → Link → Bool) → List Link → List Link,
      selectWheel sort exTags2 [exYankedLinux, exLink "foo-2.0-py3-none-any.whl", exLink "foo-1.0-py3-none-any.whl"] [] =
        some (.ok (exLink "foo-1.0-py3-none-any.whl")) ∧
      selectWheel sort exTags2 [exLink "foo-2.0-py3-none-any.whl", exLink "foo-1.0-py3-none-any.whl"] [] =
        some (.ok (exLink "foo-2.0-py3-none-any.whl")) := by
  intro sort
  constructor
  · rw [selectWheel_eq (us := [("2.0".toList, exYankedLinux, (exInfo [2, 0]).version),
        ("2.0".toList, exLink "foo-2.0-py3-none-any.whl", (exInfo [2, 0]).version),
        ("1.0".toList, exLink "foo-1.0-py3-none-any.whl", (exInfo [1, 0]).version)])
      (ys := ["2.0".toList]) (sel := (exInfo [1, 0]).version) (key := "1.0".toList)
      (by decide +kernel) (by decide +kernel) (by decide +kernel) (by decide +kernel)]
    rfl
  · rw [selectWheel_eq (us := [("2.0".toList, exLink "foo-2.0-py3-none-any.whl", (exInfo [2, 0]).version),
        ("1.0".toList, exLink "foo-1.0-py3-none-any.whl", (exInfo [1, 0]).version)])
      (ys := []) (sel := (exInfo [2, 0]).version) (key := "2.0".toList)
      (by decide +kernel) (by decide +kernel) (by decide +kernel) (by decide +kernel)]
    rfl

/-- C137 is violated: of the files of version 1.0.0 and 1.0 the first decides which version is taken, though another file is returned;
without it the other version is taken. -/
theorem C137_violated_spelling :
      selectWheel insertionSort exTags2 [exLink "foo-1.0.0-py3-none-any.whl", exLink "foo-1.0-py3-none-any.whl",
          exLink "foo-1.0.0-cp39-cp39-linux.whl"] [] = some (.ok (exLink "foo-1.0.0-cp39-cp39-linux.whl")) ∧
      selectWheel insertionSort exTags2 [exLink "foo-1.0-py3-none-any.whl", exLink "foo-1.0.0-cp39-cp39-linux.whl"] [] =
        some (.ok (exLink "foo-1.0-py3-none-any.whl")) := by decide +kernel

end Repo
