import Verif.Repo.Model
import Verif.Go.Sort
import Verif.Bdist.PropsFilename
import Verif.Pep440.PropsSelect
import Verif.Pep425.Props
/-! Properties C33–C35: `SelectWheel`. -/
namespace Repo
open Go Bdist Pep440 Pep440.Spec

/-- a file of the package that has a wheel name, for a supported platform -/
def Usable (tags : List Pep425.Tag) (links : List Link) (l : Link) (info : FileNameData) : Prop :=
  l ∈ links ∧ parseFilename l.text = .ok info ∧ Pep425.supports tags info.tag = true

/-- some usable file of this version is yanked -/
def YankedVersion (tags : List Pep425.Tag) (links : List Link) (v : Ver) : Prop :=
  ∃ l info, Usable tags links l info ∧ info.version = v ∧ (l.attr "data-yanked".toList).isSome

theorem filename_version {s : Str} {r : FileNameData} (h : parseFilename s = .ok r) :
    ∃ vs, parseVersion vs = .ok r.version := by
  obtain ⟨vs, _, _, _, _, _, h, _⟩ := (C83_parse_exact s r).mp h
  exact ⟨vs, h⟩

theorem usable_mem {tags : List Pep425.Tag} {links : List Link} {us : List (Str × Link × Ver)}
    (h : usable tags links = some us) (k : Str) (l : Link) (v : Ver) :
    (k, l, v) ∈ us ↔ ∃ info, Usable tags links l info ∧ info.version = v ∧ v.string = some k := by
  induction links generalizing us with
  | nil => injection h with h; subst h; simp [Usable]
  | cons x xs ih =>
    rw [usable] at h
    split at h
    · rename_i hp
      rw [ih h]
      constructor
      · rintro ⟨i, ⟨h1, h2⟩, h3⟩; exact ⟨i, ⟨by simp [h1], h2⟩, h3⟩
      · rintro ⟨i, ⟨h1, h2, h4⟩, h3⟩
        rcases List.mem_cons.mp h1 with rfl | h1
        · rw [hp] at h2; cases h2
        · exact ⟨i, ⟨h1, h2, h4⟩, h3⟩
    · rename_i i0 hp
      split at h
      · rename_i hs
        split at h
        · rename_i s r hv hr
          injection h with h; subst h
          rw [List.mem_cons, ih hr]
          constructor
          · rintro (h1 | ⟨i, ⟨h1, h2⟩, h3⟩)
            · injection h1 with h1 h2; injection h2 with h2 h3
              subst h1; subst h2; subst h3
              exact ⟨i0, ⟨by simp, hp, hs⟩, rfl, hv⟩
            · exact ⟨i, ⟨by simp [h1], h2⟩, h3⟩
          · rintro ⟨i, ⟨h1, h2, h4⟩, h3, h5⟩
            rcases List.mem_cons.mp h1 with rfl | h1
            · rw [hp] at h2; injection h2 with h2; subst h2; subst h3
              rw [hv] at h5; injection h5 with h5; subst h5
              exact Or.inl rfl
            · exact Or.inr ⟨i, ⟨h1, h2, h4⟩, h3, h5⟩
        · cases h
      · rename_i hs
        rw [ih h]
        constructor
        · rintro ⟨i, ⟨h1, h2⟩, h3⟩; exact ⟨i, ⟨by simp [h1], h2⟩, h3⟩
        · rintro ⟨i, ⟨h1, h2, h4⟩, h3⟩
          rcases List.mem_cons.mp h1 with rfl | h1
          · rw [hp] at h2; injection h2 with h2; subst h2; exact absurd h4 hs
          · exact ⟨i, ⟨h1, h2, h4⟩, h3⟩

/-- membership of the selected version, without any hypothesis on the versions -/
theorem select_mem {spec : Specifier} {cs : List Ver} {ex : Option Excl} {x : Ver}
    (h : select spec cs ex = some (some x)) : x ∈ cs ∧ specMatch spec x = some true := by
  have loop : ∀ (all cs : List Ver) (b be b' be' : Option Ver), (∀ v ∈ cs, v ∈ all) →
      (∀ y, b = some y → y ∈ all ∧ specMatch spec y = some true) →
      (∀ y, be = some y → y ∈ all ∧ specMatch spec y = some true) →
      selectLoop spec ex cs b be = some (b', be') →
      (∀ y, b' = some y → y ∈ all ∧ specMatch spec y = some true) ∧
      (∀ y, be' = some y → y ∈ all ∧ specMatch spec y = some true) := by
    intro all cs
    induction cs with
    | nil =>
      intro b be b' be' _ hb hbe h
      rw [selectLoop] at h
      injection h with h; injection h with h1 h2; subst h1; subst h2
      exact ⟨hb, hbe⟩
    | cons c cs ih =>
      intro b be b' be' hall hb hbe h
      rw [selectLoop.eq_def] at h; simp only at h
      have imp : ∀ b b1, improve b c = some b1 → specMatch spec c = some true →
          (∀ y, b = some y → y ∈ all ∧ specMatch spec y = some true) →
          (∀ y, b1 = some y → y ∈ all ∧ specMatch spec y = some true) := by
        intro b b1 hi hc hb y hy
        unfold improve at hi
        split at hi
        · injection hi with hi; rw [hy] at hi; injection hi with hi; subst hi
          exact ⟨hall _ (by simp), hc⟩
        · split at hi
          · cases hi
          · injection hi with hi
            rw [hy] at hi
            split at hi
            · injection hi with hi; subst hi; exact ⟨hall _ (by simp), hc⟩
            · injection hi with hi; subst hi; exact hb _ rfl
      have hall' : ∀ v ∈ cs, v ∈ all := fun v hv => hall v (by simp [hv])
      split at h
      · cases h
      · exact ih _ _ _ _ hall' hb hbe h
      · rename_i hm
        split at h
        · cases h
        · split at h
          · cases h
          · rename_i hi; exact ih _ _ _ _ hall' (imp _ _ hi hm hb) hbe h
        · split at h
          · cases h
          · rename_i hi; exact ih _ _ _ _ hall' hb (imp _ _ hi hm hbe) h
  unfold select at h
  split at h
  · cases h
  · rename_i b hs
    injection h with h; injection h with h; subst h
    exact (loop cs cs none none _ _ (fun _ h => h) (by simp) (by simp) hs).1 _ rfl
  · rename_i be hs
    injection h with h; subst h
    exact (loop cs cs none none _ _ (fun _ h => h) (by simp) (by simp) hs).2 _ rfl

/-- `ls` are the best ranked of `all` -/
theorem rankLoop_spec {tags : List Pep425.Tag} : ∀ (ls seen minList : List Link) (minRank : Nat),
    (∀ l ∈ ls, ∃ i, linkInfo l = some i) →
    ((minRank = 0 ∧ seen = [] ∧ minList = []) ∨
      (0 < minRank ∧ minList ≠ [] ∧
       (∀ l ∈ seen, ∀ i, linkInfo l = some i → minRank ≤ Pep425.preference tags i.tag) ∧
       (∀ l, l ∈ minList ↔ l ∈ seen ∧ ∃ i, linkInfo l = some i ∧ Pep425.preference tags i.tag = minRank))) →
    ∃ out, rankLoop tags minRank minList ls = some out ∧
      (seen ++ ls ≠ [] → out ≠ []) ∧
      (∀ l, l ∈ out ↔ l ∈ seen ++ ls ∧ ∃ i, linkInfo l = some i ∧
        ∀ l' ∈ seen ++ ls, ∀ i', linkInfo l' = some i' → Pep425.preference tags i.tag ≤ Pep425.preference tags i'.tag) := by
  intro ls
  induction ls with
  | nil =>
    intro seen minList minRank _ h
    refine ⟨minList, rfl, ?_, ?_⟩
    · intro hne
      rcases h with ⟨_, h, _⟩ | ⟨_, h, _⟩
      · simp [h] at hne
      · exact h
    · rcases h with ⟨_, rfl, rfl⟩ | ⟨h0, h1, h2, h3⟩
      · simp
      · intro l
        simp only [List.append_nil]
        rw [h3]
        constructor
        · rintro ⟨a, i, b, c⟩
          exact ⟨a, i, b, fun l' hl' i' hi' => by rw [c]; exact h2 l' hl' i' hi'⟩
        · rintro ⟨a, i, b, c⟩
          refine ⟨a, i, b, ?_⟩
          obtain ⟨m, hm⟩ := List.exists_mem_of_ne_nil _ h1
          obtain ⟨hm1, j, hj, hm2⟩ := (h3 m).mp hm
          have := c m hm1 j hj
          have := h2 l a i b
          omega
  | cons x ls ih =>
    intro seen minList minRank hi h
    obtain ⟨i, hx⟩ := hi x (by simp)
    have hi' : ∀ l ∈ ls, ∃ i, linkInfo l = some i := fun l hl => hi l (by simp [hl])
    have hpos : 0 < Pep425.preference tags i.tag := (Pep425.C29_preference tags i.tag).1.1
    rw [rankLoop, hx]
    simp only
    have app : seen ++ x :: ls = (seen ++ [x]) ++ ls := by simp
    rw [app]
    by_cases h1 : minRank = 0 ∨ Pep425.preference tags i.tag < minRank
    · rw [if_pos h1]
      refine ih (seen ++ [x]) [x] _ hi' (Or.inr ⟨hpos, by simp, ?_, ?_⟩)
      · intro l hl j hj
        rcases List.mem_append.mp hl with hl | hl
        · rcases h with ⟨_, h, _⟩ | ⟨h0, _, h2, _⟩
          · rw [h] at hl; cases hl
          · have := h2 l hl j hj; omega
        · rw [List.mem_singleton] at hl; subst hl
          rw [hx] at hj; injection hj with hj; subst hj; exact Nat.le_refl _
      · intro l
        rw [List.mem_singleton]
        constructor
        · rintro rfl; exact ⟨by simp, i, hx, rfl⟩
        · rintro ⟨hl, j, hj, e⟩
          rcases List.mem_append.mp hl with hl | hl
          · rcases h with ⟨_, h, _⟩ | ⟨h0, _, h2, _⟩
            · rw [h] at hl; cases hl
            · have := h2 l hl j hj; omega
          · simpa using hl
    · rw [if_neg h1]
      rcases h with ⟨h, _⟩ | ⟨h0, hne, h2, h3⟩
      · exact absurd (Or.inl h) h1
      · by_cases h4 : Pep425.preference tags i.tag = minRank
        · rw [if_pos h4]
          refine ih (seen ++ [x]) (minList ++ [x]) _ hi' (Or.inr ⟨h0, by simp, ?_, ?_⟩)
          · intro l hl j hj
            rcases List.mem_append.mp hl with hl | hl
            · exact h2 l hl j hj
            · rw [List.mem_singleton] at hl; subst hl
              rw [hx] at hj; injection hj with hj; subst hj; omega
          · intro l
            rw [List.mem_append, List.mem_append, h3, List.mem_singleton]
            constructor
            · rintro (⟨a, b⟩ | rfl)
              · exact ⟨Or.inl a, b⟩
              · exact ⟨Or.inr rfl, i, hx, h4⟩
            · rintro ⟨a | a, b⟩
              · exact Or.inl ⟨a, b⟩
              · exact Or.inr a
        · rw [if_neg h4]
          refine ih (seen ++ [x]) minList _ hi' (Or.inr ⟨h0, hne, ?_, ?_⟩)
          · intro l hl j hj
            rcases List.mem_append.mp hl with hl | hl
            · exact h2 l hl j hj
            · rw [List.mem_singleton] at hl; subst hl
              rw [hx] at hj; injection hj with hj; subst hj; omega
          · intro l
            rw [h3]
            constructor
            · rintro ⟨a, b⟩; exact ⟨by simp [a], b⟩
            · rintro ⟨hl, j, hj, e⟩
              rcases List.mem_append.mp hl with hl | hl
              · exact ⟨hl, j, hj, e⟩
              · rw [List.mem_singleton] at hl; subst hl
                rw [hx] at hj; injection hj with hj; subst hj; omega

theorem linkInfo_some {l : Link} {i : FileNameData} : linkInfo l = some i ↔ parseFilename l.text = .ok i := by
  unfold linkInfo
  cases parseFilename l.text <;> simp

/-- everything known about the result once the version is selected -/
theorem selectWheel_anatomy {sort : (Link → Link → Bool) → List Link → List Link} (hp : ∀ lt l, (sort lt l).Perm l)
    {tags : List Pep425.Tag} {links : List Link} {spec : Specifier} {us : List (Str × Link × Ver)} {sel : Ver}
    {yanked : List Str} (hus : usable tags links = some us) (hy : yankedVersions (us.map (·.2.1)) = some yanked)
    (hsel : select spec (us.map (·.2.2)) (some (multiExcluder [excludePreReleases [], yankedAllow yanked])) =
      some (some sel)) :
    (∃ l, selectWheel sort tags links spec = some (.ok l)) ∧
    ∀ l, selectWheel sort tags links spec = some (.ok l) → ∃ info, Usable tags links l info ∧ info.version = sel ∧
      specMatch spec sel = some true ∧
      (∀ l' info', Usable tags links l' info' → info'.version = sel →
        Pep425.preference tags info.tag ≤ Pep425.preference tags info'.tag) ∧
      ((∀ l' info', Usable tags links l' info' → info'.version = sel →
          Pep425.preference tags info.tag = Pep425.preference tags info'.tag → l' = l) ∨
        ∃ minList rest, (∀ l', l' ∈ minList ↔ ∃ info', Usable tags links l' info' ∧ info'.version = sel ∧
          Pep425.preference tags info.tag = Pep425.preference tags info'.tag) ∧ sort buildLess minList = l :: rest) := by
  obtain ⟨hmem, hmatch⟩ := select_mem hsel
  obtain ⟨⟨k0, l0, v0⟩, hu0, e0⟩ := List.mem_map.mp hmem
  simp only at e0; subst e0
  obtain ⟨i0, hU0, hv0, hs0⟩ := (usable_mem hus _ _ _).mp hu0
  obtain ⟨p0, hp0⟩ := filename_version hU0.2.1
  have hms : ∀ l, l ∈ (us.filter (fun u => u.1 = k0)).map (·.2.1) ↔ ∃ info, Usable tags links l info ∧ info.version = v0 := by
    intro l
    rw [List.mem_map]
    constructor
    · rintro ⟨⟨k, l', v⟩, hm, rfl⟩
      rw [List.mem_filter] at hm
      have hk : k = k0 := by simpa using hm.2
      subst hk
      obtain ⟨i, hU, hv, hs⟩ := (usable_mem hus _ _ _).mp hm.1
      refine ⟨i, hU, ?_⟩
      obtain ⟨p, hp⟩ := filename_version hU.2.1
      have : i.version = i0.version := C07_string_injective hp hp0 (by rw [hv, hs, hv0, hs0])
      rw [this, hv0]
    · rintro ⟨i, hU, hv⟩
      exact ⟨(k0, l, v0), List.mem_filter.mpr ⟨(usable_mem hus _ _ _).mpr ⟨i, hU, hv, hs0⟩, by simp⟩, rfl⟩
  have hrank := rankLoop_spec (tags := tags) ((us.filter (fun u => u.1 = k0)).map (·.2.1)) [] [] 0
    (fun l hl => by obtain ⟨i, hU, _⟩ := (hms l).mp hl; exact ⟨i, linkInfo_some.mpr hU.2.1⟩)
    (Or.inl ⟨rfl, rfl, rfl⟩)
  obtain ⟨out, eout, hne, hout⟩ := hrank
  simp only [List.nil_append] at hne hout
  have hnil : (us.filter (fun u => u.1 = k0)).map (·.2.1) ≠ [] := by
    intro e
    have := (hms l0).mpr ⟨i0, hU0, hv0⟩
    rw [e] at this; cases this
  have hout' : ∀ l, l ∈ out ↔ ∃ i, Usable tags links l i ∧ i.version = v0 ∧
      ∀ l' i', Usable tags links l' i' → i'.version = v0 → Pep425.preference tags i.tag ≤ Pep425.preference tags i'.tag := by
    intro l
    rw [hout]
    constructor
    · rintro ⟨hl, i, hi, hmin⟩
      obtain ⟨j, hU, hv⟩ := (hms l).mp hl
      have : i = j := by
        have := linkInfo_some.mp hi
        rw [hU.2.1] at this; injection this with this; exact this.symm
      subst this
      exact ⟨i, hU, hv, fun l' i' hU' hv' => hmin l' ((hms l').mpr ⟨i', hU', hv'⟩) i' (linkInfo_some.mpr hU'.2.1)⟩
    · rintro ⟨i, hU, hv, hmin⟩
      refine ⟨(hms l).mpr ⟨i, hU, hv⟩, i, linkInfo_some.mpr hU.2.1, ?_⟩
      intro l' hl' i' hi'
      obtain ⟨j, hU', hv'⟩ := (hms l').mp hl'
      have : i' = j := by
        have := linkInfo_some.mp hi'
        rw [hU'.2.1] at this; injection this with this; exact this.symm
      subst this
      exact hmin l' i' hU' hv'
  -- with a given best link, membership in `out` is having the same rank
  have same : ∀ l i, Usable tags links l i → i.version = v0 →
      (∀ l' i', Usable tags links l' i' → i'.version = v0 → Pep425.preference tags i.tag ≤ Pep425.preference tags i'.tag) →
      ∀ l', l' ∈ out ↔ ∃ i', Usable tags links l' i' ∧ i'.version = v0 ∧
        Pep425.preference tags i.tag = Pep425.preference tags i'.tag := by
    intro l i hU hv hmin l'
    rw [hout']
    constructor
    · rintro ⟨i', hU', hv', hmin'⟩
      exact ⟨i', hU', hv', Nat.le_antisymm (hmin l' i' hU' hv') (hmin' l i hU hv)⟩
    · rintro ⟨i', hU', hv', e⟩
      exact ⟨i', hU', hv', fun l'' i'' hU'' hv'' => by rw [← e]; exact hmin l'' i'' hU'' hv''⟩
  unfold selectWheel
  rw [hus]; simp only [hy, hsel, hs0]
  generalize hls : (us.filter (fun u => decide (u.1 = k0))).map (·.2.1) = ls at hms hnil eout hne
  by_cases hone : ∃ l, ls = [l]
  · obtain ⟨l, rfl⟩ := hone
    refine ⟨⟨l, rfl⟩, ?_⟩
    rintro l' h
    injection h with h; injection h with h; subst h
    obtain ⟨i, hU, hv⟩ := (hms l).mp (by simp)
    refine ⟨i, hU, hv, hmatch, ?_, Or.inl ?_⟩
    · intro l' i' hU' hv'
      have : l' = l := by simpa using (hms l').mpr ⟨i', hU', hv'⟩
      subst this
      have := hU.2.1.symm.trans hU'.2.1
      injection this with this; subst this; exact Nat.le_refl _
    · intro l' i' hU' hv' _
      simpa using (hms l').mpr ⟨i', hU', hv'⟩
  · have step : pickRank sort tags ls = pickBuild sort out := by
      match ls, hone, eout with
      | [], _, eout => simp only [pickRank, eout, Option.bind_some]
      | [l], hone, _ => exact absurd ⟨l, rfl⟩ hone
      | a :: b :: ls, _, eout => simp only [pickRank, eout, Option.bind_some]
    rw [step]
    have hone' : out ≠ [] := hne hnil
    by_cases h1 : ∃ l, out = [l]
    · obtain ⟨l, rfl⟩ := h1
      refine ⟨⟨l, rfl⟩, ?_⟩
      rintro l' h
      injection h with h; injection h with h; subst h
      obtain ⟨i, hU, hv, hmin⟩ := (hout' l).mp (by simp)
      refine ⟨i, hU, hv, hmatch, hmin, Or.inl ?_⟩
      intro l' i' hU' hv' e
      simpa using (same l i hU hv hmin l').mpr ⟨i', hU', hv', e⟩
    · have step2 : pickBuild sort out = firstLink (sort buildLess out) := by
        match out, h1 with
        | [], _ => rfl
        | [l], h1 => exact absurd ⟨l, rfl⟩ h1
        | a :: b :: o, _ => rfl
      rw [step2]
      cases hsort : sort buildLess out with
      | nil =>
        have := hp buildLess out
        rw [hsort] at this
        exact absurd this.nil_eq.symm hone'
      | cons l rest =>
        refine ⟨⟨l, rfl⟩, ?_⟩
        rintro l' h
        injection h with h; injection h with h; subst h
        have hl : l ∈ out := (hp buildLess out).mem_iff.mp (by rw [hsort]; simp)
        obtain ⟨i, hU, hv, hmin⟩ := (hout' l).mp hl
        exact ⟨i, hU, hv, hmatch, hmin, Or.inr ⟨out, rest, same l i hU hv hmin, hsort⟩⟩

/-- a returned link comes from a selected version -/
theorem selectWheel_ok {sort : (Link → Link → Bool) → List Link → List Link}
    {tags : List Pep425.Tag} {links : List Link} {spec : Specifier} {l : Link}
    (h : selectWheel sort tags links spec = some (.ok l)) :
    ∃ us yanked sel, usable tags links = some us ∧ yankedVersions (us.map (·.2.1)) = some yanked ∧
      select spec (us.map (·.2.2)) (some (multiExcluder [excludePreReleases [], yankedAllow yanked])) = some (some sel) := by
  unfold selectWheel at h
  split at h
  · cases h
  · rename_i us hus
    split at h
    · cases h
    · rename_i y hy
      split at h
      · cases h
      · simp at h
      · rename_i sel hsel
        exact ⟨us, y, sel, hus, hy, hsel⟩

/-- C33 (partial): a returned link is one of the package's files, has a valid wheel name, a supported tag and a version
satisfying the specifier, and no usable wheel with the very same version (components equal) has a more preferred tag.
For versions that are merely equal in the version order (`1.0` and `1.0.0`) the claim is false: `C33_violated`. -/
theorem C33_selected_wheel_partial {sort : (Link → Link → Bool) → List Link → List Link} (hp : ∀ lt l, (sort lt l).Perm l)
    {tags : List Pep425.Tag} {links : List Link} {spec : Specifier} {l : Link}
    (h : selectWheel sort tags links spec = some (.ok l)) :
    ∃ info, l ∈ links ∧ parseFilename l.text = .ok info ∧ Pep425.supports tags info.tag = true ∧
      specMatch spec info.version = some true ∧
      ∀ l' ∈ links, ∀ info', parseFilename l'.text = .ok info' → Pep425.supports tags info'.tag = true →
        info'.version = info.version → Pep425.preference tags info.tag ≤ Pep425.preference tags info'.tag := by
  obtain ⟨us, y, sel, h1, h2, h3⟩ := selectWheel_ok h
  obtain ⟨info, hU, hv, hm, hmin, _⟩ := (selectWheel_anatomy hp h1 h2 h3).2 l h
  exact ⟨info, hU.1, hU.2.1, hU.2.2, hv ▸ hm, fun l' hl' i' hi' hs' hv' =>
    hmin l' i' ⟨hl', hi', hs'⟩ (hv'.trans hv)⟩

def exTag (a b c : String) : Pep425.Tag := ⟨a.toList, b.toList, c.toList⟩
def exLink (s : String) : Link := ⟨s.toList, [], []⟩

example : selectWheel insertionSort [exTag "cp39" "cp39" "linux", exTag "py3" "none" "any"]
    [exLink "foo-1.0-py3-none-any.whl", exLink "foo-1.0-cp39-cp39-linux.whl", exLink "foo-0.9-cp39-cp39-linux.whl",
     exLink "junk"] [] = some (.ok (exLink "foo-1.0-cp39-cp39-linux.whl")) := by decide +kernel

/-- C33 is violated for the version order's notion of "same version": `1.0` and `1.0.0` are kept apart. -/
theorem C33_violated : ∃ (tags : List Pep425.Tag) (links : List Link) (i i' : FileNameData),
    (∀ sort : (Link → Link → Bool) → List Link → List Link, (∀ lt l, (sort lt l).Perm l) →
      selectWheel sort tags links [] = some (.ok (exLink "foo-1.0-py3-none-any.whl"))) ∧
    parseFilename (exLink "foo-1.0-py3-none-any.whl").text = .ok i ∧
    exLink "foo-1.0.0-cp39-cp39-linux.whl" ∈ links ∧
    parseFilename (exLink "foo-1.0.0-cp39-cp39-linux.whl").text = .ok i' ∧
    i.version.cmp i'.version = some 0 ∧
    Pep425.preference tags i'.tag < Pep425.preference tags i.tag := by
  refine ⟨[exTag "cp39" "cp39" "linux", exTag "py3" "none" "any"],
    [exLink "foo-1.0-py3-none-any.whl", exLink "foo-1.0.0-cp39-cp39-linux.whl"],
    ⟨"foo".toList, { epoch := 0, release := [1, 0], pre := none, post := none, dev := none, loc := [] }, none,
      exTag "py3" "none" "any"⟩,
    ⟨"foo".toList, { epoch := 0, release := [1, 0, 0], pre := none, post := none, dev := none, loc := [] }, none,
      exTag "cp39" "cp39" "linux"⟩, ?_, by decide +kernel, by decide +kernel, by decide +kernel, by decide +kernel,
    by decide +kernel⟩
  intro sort hp
  have h1 : usable [exTag "cp39" "cp39" "linux", exTag "py3" "none" "any"]
      [exLink "foo-1.0-py3-none-any.whl", exLink "foo-1.0.0-cp39-cp39-linux.whl"] =
      some [("1.0".toList, exLink "foo-1.0-py3-none-any.whl",
          { epoch := 0, release := [1, 0], pre := none, post := none, dev := none, loc := [] }),
        ("1.0.0".toList, exLink "foo-1.0.0-cp39-cp39-linux.whl",
          { epoch := 0, release := [1, 0, 0], pre := none, post := none, dev := none, loc := [] })] := by decide +kernel
  unfold selectWheel
  rw [h1]
  have h2 : yankedVersions [exLink "foo-1.0-py3-none-any.whl", exLink "foo-1.0.0-cp39-cp39-linux.whl"] = some [] := by
    decide +kernel
  simp only [List.map_cons, List.map_nil, h2]
  have h3 : select [] [{ epoch := 0, release := [1, 0], pre := none, post := none, dev := none, loc := [] },
      { epoch := 0, release := [1, 0, 0], pre := none, post := none, dev := none, loc := [] }]
      (some (multiExcluder [excludePreReleases [], yankedAllow []])) =
      some (some { epoch := 0, release := [1, 0], pre := none, post := none, dev := none, loc := [] }) := by decide +kernel
  rw [h3]
  have h4 : ({ epoch := 0, release := [1, 0], pre := none, post := none, dev := none, loc := [] } : Ver).string =
    some "1.0".toList := by decide +kernel
  simp only [h4]
  rfl

/-! ### C34 -/

theorem string_some {s : Str} {r : FileNameData} (h : parseFilename s = .ok r) (hw : WF r.version) :
    ∃ k, r.version.string = some k := by
  obtain ⟨vs, hv⟩ := filename_version h
  obtain ⟨t, ht, _⟩ := C04_parse_print_parse_partial hv (fun n hn => (hw.loc n hn).1)
  exact ⟨t, ht⟩

theorem usable_some {tags : List Pep425.Tag} {links : List Link}
    (h : ∀ l info, Usable tags links l info → WF info.version) : ∃ us, usable tags links = some us := by
  induction links with
  | nil => exact ⟨[], rfl⟩
  | cons x xs ih =>
    obtain ⟨us, hus⟩ := ih (fun l i hU => h l i ⟨by simp [hU.1], hU.2⟩)
    rw [usable]
    cases hp : parseFilename x.text with
    | error e => exact ⟨us, hus⟩
    | ok i =>
      simp only
      by_cases hs : Pep425.supports tags i.tag = true
      · obtain ⟨k, hk⟩ := string_some hp (h x i ⟨by simp, hp, hs⟩)
        rw [if_pos hs, hk, hus]; exact ⟨_, rfl⟩
      · rw [if_neg hs]; exact ⟨us, hus⟩

theorem yankedVersions_spec {ls : List Link} (h : ∀ l ∈ ls, ∀ i, parseFilename l.text = .ok i → WF i.version) :
    ∃ ys, yankedVersions ls = some ys ∧
      ∀ k, k ∈ ys ↔ ∃ l ∈ ls, ∃ i, parseFilename l.text = .ok i ∧ i.version.string = some k ∧
        (l.attr "data-yanked".toList).isSome := by
  induction ls with
  | nil => exact ⟨[], rfl, by simp⟩
  | cons x xs ih =>
    obtain ⟨ys, hys, hm⟩ := ih (fun l hl => h l (by simp [hl]))
    have skip : (∀ i k, ¬ (parseFilename x.text = .ok i ∧ i.version.string = some k ∧
        (x.attr "data-yanked".toList).isSome = true)) → ∀ k, k ∈ ys ↔ ∃ l ∈ x :: xs, ∃ i, parseFilename l.text = .ok i ∧
        i.version.string = some k ∧ (l.attr "data-yanked".toList).isSome := by
      intro hno k
      rw [hm]
      constructor
      · rintro ⟨l, hl, r⟩; exact ⟨l, by simp [hl], r⟩
      · rintro ⟨l, hl, i, r⟩
        rcases List.mem_cons.mp hl with rfl | hl
        · exact absurd r (hno i k)
        · exact ⟨l, hl, i, r⟩
    rw [yankedVersions]
    unfold isYanked
    by_cases hy : (x.attr "data-yanked".toList).isSome = true
    · rw [if_pos hy]
      cases hp : parseFilename x.text with
      | error e => exact ⟨ys, hys, skip (fun i k hc => by rw [hp] at hc; cases hc.1)⟩
      | ok i =>
        obtain ⟨k, hk⟩ := string_some hp (h x (by simp) i hp)
        simp only [hk, hys]
        refine ⟨k :: ys, rfl, ?_⟩
        intro k'
        rw [List.mem_cons, hm]
        constructor
        · rintro (rfl | ⟨l, hl, r⟩)
          · exact ⟨x, by simp, i, hp, hk, hy⟩
          · exact ⟨l, by simp [hl], r⟩
        · rintro ⟨l, hl, j, r1, r2, r3⟩
          rcases List.mem_cons.mp hl with rfl | hl
          · rw [hp] at r1; injection r1 with r1; subst r1
            rw [hk] at r2; injection r2 with r2; exact Or.inl r2.symm
          · exact Or.inr ⟨l, hl, j, r1, r2, r3⟩
    · rw [if_neg hy]
      exact ⟨ys, hys, skip (fun i k hc => hy hc.2.2)⟩

/-- what the version choice comes down to, as the code stands -/
def Preferred (tags : List Pep425.Tag) (links : List Link) (v : Ver) : Prop :=
  (v.pre ≠ none ∨ v.dev ≠ none) ∨ ¬ YankedVersion tags links v

/-- C34 (partial), exact behaviour: `SelectWheel` never panics, fails exactly when no usable wheel matches, and otherwise
takes the latest version among the matching ones that are pre-releases or not yanked, falling back to the latest
matching one.  That a pre-release is not avoided contradicts the claim: `C34_violated`. -/
theorem C34_exact_partial {sort : (Link → Link → Bool) → List Link → List Link} (hp : ∀ lt l, (sort lt l).Perm l)
    {tags : List Pep425.Tag} {links : List Link} {spec : Specifier} (hs : ∀ c ∈ spec, WFClause c)
    (hw : ∀ l info, Usable tags links l info → WF info.version) :
    ∃ r, selectWheel sort tags links spec = some r ∧
      (r = .error () ↔ ∀ l info, Usable tags links l info → specMatch spec info.version = some false) ∧
      (∀ l, r = .ok l → ∃ info, Usable tags links l info ∧ specMatch spec info.version = some true ∧
        ((∃ l' i', Usable tags links l' i' ∧ specMatch spec i'.version = some true ∧ Preferred tags links i'.version) →
          Preferred tags links info.version ∧
          ∀ l' i', Usable tags links l' i' → specMatch spec i'.version = some true → Preferred tags links i'.version →
            cmpVer info.version i'.version ≠ .lt) ∧
        ((∀ l' i', Usable tags links l' i' → specMatch spec i'.version = some true → ¬ Preferred tags links i'.version) →
          ∀ l' i', Usable tags links l' i' → specMatch spec i'.version = some true →
            cmpVer info.version i'.version ≠ .lt)) := by
  obtain ⟨us, hus⟩ := usable_some hw
  have hmem := usable_mem hus
  obtain ⟨ys, hys, hym⟩ := yankedVersions_spec (ls := us.map (·.2.1)) (by
    intro l hl i hi
    obtain ⟨⟨k, l', v⟩, hm, rfl⟩ := List.mem_map.mp hl
    obtain ⟨j, hU, _⟩ := (hmem _ _ _).mp hm
    have : i = j := by rw [hU.2.1] at hi; injection hi with hi; exact hi.symm
    subst this
    exact hw _ _ hU)
  have hver : ∀ v, v ∈ us.map (·.2.2) ↔ ∃ l i, Usable tags links l i ∧ i.version = v := by
    intro v
    rw [List.mem_map]
    constructor
    · rintro ⟨⟨k, l, v'⟩, hm, rfl⟩
      obtain ⟨i, hU, hv, _⟩ := (hmem _ _ _).mp hm
      exact ⟨l, i, hU, hv⟩
    · rintro ⟨l, i, hU, rfl⟩
      obtain ⟨k, hk⟩ := string_some hU.2.1 (hw _ _ hU)
      exact ⟨(k, l, i.version), (hmem _ _ _).mpr ⟨i, hU, rfl, hk⟩, rfl⟩
  have hwf : ∀ v ∈ us.map (·.2.2), WF v := by
    intro v hv
    obtain ⟨l, i, hU, rfl⟩ := (hver v).mp hv
    exact hw _ _ hU
  -- the exclusion behaviour
  have hex : ∀ l i, Usable tags links l i →
      ∃ b, multiExcluder [excludePreReleases [], yankedAllow ys] i.version = some b ∧
        (b = false ↔ Preferred tags links i.version) := by
    intro l i hU
    obtain ⟨k, hk⟩ := string_some hU.2.1 (hw _ _ hU)
    have hyk : k ∈ ys ↔ YankedVersion tags links i.version := by
      rw [hym]
      constructor
      · rintro ⟨l', hl', i', hi', hk', hy'⟩
        obtain ⟨⟨k2, l2, v2⟩, hm, rfl⟩ := List.mem_map.mp hl'
        obtain ⟨j, hU2, _⟩ := (hmem _ _ _).mp hm
        have : i' = j := by
          have := hU2.2.1; simp only at hi'; rw [this] at hi'; injection hi' with hi'; exact hi'.symm
        subst this
        obtain ⟨p, hp⟩ := filename_version hU.2.1
        obtain ⟨p', hp'⟩ := filename_version hU2.2.1
        exact ⟨l2, i', hU2, C07_string_injective hp' hp (by rw [hk, hk']), hy'⟩
      · rintro ⟨l', i', hU', hv', hy'⟩
        refine ⟨l', List.mem_map.mpr ⟨(k, l', i'.version), (hmem _ _ _).mpr ⟨i', hU', rfl, by rw [hv', hk]⟩, rfl⟩, i', hU'.2.1,
          by rw [hv', hk], hy'⟩
    by_cases hpre : i.version.pre = none ∧ i.version.dev = none
    · have e1 : excludePreReleases [] i.version = some true := by
        unfold excludePreReleases
        rw [if_pos]; simp [PubVer.isPreRelease, hpre]
      have e2 : yankedAllow ys i.version = some (decide (k ∈ ys)) := by simp [yankedAllow, hk]
      refine ⟨decide (k ∈ ys), ?_, ?_⟩
      · simp only [multiExcluder, e1, e2]
        cases decide (k ∈ ys) <;> rfl
      · rw [decide_eq_false_iff_not, hyk]
        unfold Preferred
        simp [hpre]
    · have e1 : excludePreReleases [] i.version = some false := by
        unfold excludePreReleases
        rw [if_neg]
        · rfl
        · simp only [PubVer.isPreRelease, Bool.not_eq_true', Bool.or_eq_false_iff]
          intro h
          exact hpre (by simpa using h)
      refine ⟨false, by simp only [multiExcluder, e1], ?_⟩
      simp only [true_iff]
      left
      by_cases h1 : i.version.pre = none
      · exact Or.inr (fun h2 => hpre ⟨h1, h2⟩)
      · exact Or.inl h1
  have hexne : ∀ f, some (multiExcluder [excludePreReleases [], yankedAllow ys]) = some f →
      ∀ v ∈ us.map (·.2.2), f v ≠ none := by
    intro f hf v hv
    injection hf with hf; subst hf
    obtain ⟨l, i, hU, rfl⟩ := (hver v).mp hv
    obtain ⟨b, hb, _⟩ := hex l i hU
    rw [hb]; simp
  obtain ⟨r, hr, hnone, hsome⟩ := C19_select_membership hs hwf hexne
  cases r with
  | none =>
    have e : selectWheel sort tags links spec = some (.error ()) := by
      unfold selectWheel; rw [hus]; simp only [hys, hr]
    refine ⟨_, e, ⟨fun _ l i hU => (hnone.mp rfl) _ ((hver _).mpr ⟨l, i, hU, rfl⟩), fun _ => rfl⟩, by simp⟩
  | some sel =>
    obtain ⟨⟨l, hl⟩, hall⟩ := selectWheel_anatomy hp hus hys hr
    refine ⟨_, hl, ⟨by simp, ?_⟩, ?_⟩
    · intro h
      have := hnone.mpr (fun v hv => by obtain ⟨l, i, hU, rfl⟩ := (hver v).mp hv; exact h l i hU)
      cases this
    · intro l' e
      injection e with e; subst e
      obtain ⟨info, hU, hv, hm, _⟩ := hall l hl
      subst hv
      obtain ⟨_, c2, c3⟩ := C20_select_preference_partial hs hwf hexne _ hr
      have toF : ∀ l' i', Usable tags links l' i' →
          (multiExcluder [excludePreReleases [], yankedAllow ys] i'.version = some false ↔ Preferred tags links i'.version) := by
        intro l' i' hU'
        obtain ⟨b, hb, hi⟩ := hex l' i' hU'
        rw [hb, ← hi]; simp
      have toT : ∀ l' i', Usable tags links l' i' →
          (multiExcluder [excludePreReleases [], yankedAllow ys] i'.version = some true ↔ ¬ Preferred tags links i'.version) := by
        intro l' i' hU'
        obtain ⟨b, hb, hi⟩ := hex l' i' hU'
        rw [hb, ← hi]; simp
      refine ⟨info, hU, hm, ?_, ?_⟩
      · rintro ⟨l', i', hU', hm', hP'⟩
        obtain ⟨a, b⟩ := c2 _ rfl ⟨_, (hver _).mpr ⟨l', i', hU', rfl⟩, hm', (toF l' i' hU').mpr hP'⟩
        refine ⟨(toF _ _ hU).mp a, ?_⟩
        intro l2 i2 hU2 hm2 hP2
        exact b _ ((hver _).mpr ⟨l2, i2, hU2, rfl⟩) hm2 ((toF _ _ hU2).mpr hP2)
      · intro hno
        obtain ⟨a, b⟩ := c3 _ rfl (fun v hv hmv => by
          obtain ⟨l2, i2, hU2, rfl⟩ := (hver v).mp hv
          exact (toT _ _ hU2).mpr (hno l2 i2 hU2 hmv))
        intro l2 i2 hU2 hm2
        exact b _ ((hver _).mpr ⟨l2, i2, hU2, rfl⟩) hm2

/-- C34 (partial): if no usable matching wheel is a pre-release and some matching version is not yanked, the result is
a non-yanked file of a latest version among those not yanked. -/
theorem C34_avoids_yanked_partial {sort : (Link → Link → Bool) → List Link → List Link} (hp : ∀ lt l, (sort lt l).Perm l)
    {tags : List Pep425.Tag} {links : List Link} {spec : Specifier} (hs : ∀ c ∈ spec, WFClause c)
    (hw : ∀ l info, Usable tags links l info → WF info.version)
    (hnopre : ∀ l info, Usable tags links l info → specMatch spec info.version = some true →
      info.version.pre = none ∧ info.version.dev = none)
    (hex : ∃ l info, Usable tags links l info ∧ specMatch spec info.version = some true ∧
      ¬ YankedVersion tags links info.version) :
    ∃ l info, selectWheel sort tags links spec = some (.ok l) ∧ Usable tags links l info ∧
      specMatch spec info.version = some true ∧ l.attr "data-yanked".toList = none ∧
      ∀ l' i', Usable tags links l' i' → specMatch spec i'.version = some true → ¬ YankedVersion tags links i'.version →
        cmpVer info.version i'.version ≠ .lt := by
  obtain ⟨r, hr, hnone, hsome⟩ := C34_exact_partial hp hs hw
  obtain ⟨l0, i0, hU0, hm0, hy0⟩ := hex
  cases r with
  | error e =>
    have := hnone.mp rfl l0 i0 hU0
    rw [hm0] at this; cases this
  | ok l =>
    obtain ⟨info, hU, hm, h1, _⟩ := hsome l rfl
    obtain ⟨hP, hmax⟩ := h1 ⟨l0, i0, hU0, hm0, Or.inr hy0⟩
    have hny : ¬ YankedVersion tags links info.version := by
      rcases hP with h | h
      · have := hnopre l info hU hm
        rcases h with h | h
        · exact absurd this.1 h
        · exact absurd this.2 h
      · exact h
    refine ⟨l, info, hr, hU, hm, ?_, fun l' i' hU' hm' hy' => hmax l' i' hU' hm' (Or.inr hy')⟩
    cases hd : l.attr "data-yanked".toList with
    | none => rfl
    | some x => exact absurd ⟨l, info, hU, rfl, by rw [hd]; rfl⟩ hny

example : selectWheel insertionSort [exTag "py3" "none" "any"]
    [⟨"foo-2.0-py3-none-any.whl".toList, [], [("data-yanked".toList, [])]⟩, exLink "foo-1.5-py3-none-any.whl",
     exLink "foo-1.0-py3-none-any.whl"] [] = some (.ok (exLink "foo-1.5-py3-none-any.whl")) := by decide +kernel

def exYanked : Link := ⟨"foo-2.0-py3-none-any.whl".toList, [], [("data-yanked".toList, [])]⟩
def exInfo (rel : List Int) : FileNameData :=
  ⟨"foo".toList, { epoch := 0, release := rel, pre := none, post := none, dev := none, loc := [] }, none,
   exTag "py3" "none" "any"⟩

theorem exInfo_wf (a b : Int) (ha : 0 ≤ a ∧ a < 2 ^ 63) (hb : 0 ≤ b ∧ b < 2 ^ 63) : WF (exInfo [a, b]).version := by
  refine ⟨⟨by simp [exInfo, Nat63], ?_, by simp [exInfo], by simp [exInfo], by simp [exInfo]⟩, by simp [WFLoc, exInfo]⟩
  intro n hn
  simp [exInfo] at hn
  rcases hn with rfl | rfl
  · exact ha
  · exact hb

/-- the hypotheses of `C34_avoids_yanked_partial` are met -/
example : (∀ l info, Usable [exTag "py3" "none" "any"] [exYanked, exLink "foo-1.5-py3-none-any.whl"] l info →
      WF info.version ∧ info.version.pre = none ∧ info.version.dev = none) ∧
    (∃ l info, Usable [exTag "py3" "none" "any"] [exYanked, exLink "foo-1.5-py3-none-any.whl"] l info ∧
      specMatch [] info.version = some true ∧
      ¬ YankedVersion [exTag "py3" "none" "any"] [exYanked, exLink "foo-1.5-py3-none-any.whl"] info.version) := by
  have e1 : parseFilename exYanked.text = .ok (exInfo [2, 0]) := by decide +kernel
  have e2 : parseFilename (exLink "foo-1.5-py3-none-any.whl").text = .ok (exInfo [1, 5]) := by decide +kernel
  have cases : ∀ l info, Usable [exTag "py3" "none" "any"] [exYanked, exLink "foo-1.5-py3-none-any.whl"] l info →
      (l = exYanked ∧ info = exInfo [2, 0]) ∨ (l = exLink "foo-1.5-py3-none-any.whl" ∧ info = exInfo [1, 5]) := by
    rintro l info ⟨h1, h2, -⟩
    simp only [List.mem_cons, List.not_mem_nil, or_false] at h1
    rcases h1 with rfl | rfl
    · rw [e1] at h2; injection h2 with h2; exact Or.inl ⟨rfl, h2.symm⟩
    · rw [e2] at h2; injection h2 with h2; exact Or.inr ⟨rfl, h2.symm⟩
  refine ⟨?_, exLink "foo-1.5-py3-none-any.whl", exInfo [1, 5], ⟨by simp, e2, by decide +kernel⟩, rfl, ?_⟩
  · intro l info hU
    rcases cases l info hU with ⟨-, rfl⟩ | ⟨-, rfl⟩
    · exact ⟨exInfo_wf 2 0 (by decide) (by decide), rfl, rfl⟩
    · exact ⟨exInfo_wf 1 5 (by decide) (by decide), rfl, rfl⟩
  · rintro ⟨l, i, hU, hv, hy⟩
    rcases cases l i hU with ⟨-, rfl⟩ | ⟨rfl, -⟩
    · revert hv; decide +kernel
    · revert hy; decide +kernel

/-- C34 is violated: of `1.0` and `1.1a1`, neither yanked, the pre-release is returned. -/
theorem C34_violated : ∀ sort : (Link → Link → Bool) → List Link → List Link,
    selectWheel sort [exTag "py3" "none" "any"] [exLink "foo-1.0-py3-none-any.whl", exLink "foo-1.1a1-py3-none-any.whl"] [] =
      some (.ok (exLink "foo-1.1a1-py3-none-any.whl")) := by
  intro sort
  have h1 : usable [exTag "py3" "none" "any"] [exLink "foo-1.0-py3-none-any.whl", exLink "foo-1.1a1-py3-none-any.whl"] =
      some [("1.0".toList, exLink "foo-1.0-py3-none-any.whl",
          { epoch := 0, release := [1, 0], pre := none, post := none, dev := none, loc := [] }),
        ("1.1a1".toList, exLink "foo-1.1a1-py3-none-any.whl",
          { epoch := 0, release := [1, 1], pre := some ("a".toList, 1), post := none, dev := none, loc := [] })] := by
    decide +kernel
  unfold selectWheel
  rw [h1]
  have h2 : yankedVersions [exLink "foo-1.0-py3-none-any.whl", exLink "foo-1.1a1-py3-none-any.whl"] = some [] := by
    decide +kernel
  simp only [List.map_cons, List.map_nil, h2]
  have h3 : select [] [{ epoch := 0, release := [1, 0], pre := none, post := none, dev := none, loc := [] },
      { epoch := 0, release := [1, 1], pre := some ("a".toList, 1), post := none, dev := none, loc := [] }]
      (some (multiExcluder [excludePreReleases [], yankedAllow []])) =
      some (some { epoch := 0, release := [1, 1], pre := some ("a".toList, 1), post := none, dev := none, loc := [] }) := by
    decide +kernel
  rw [h3]
  have h4 : ({ epoch := 0, release := [1, 1], pre := some ("a".toList, 1), post := none, dev := none, loc := [] } : Ver).string =
    some "1.1a1".toList := by decide +kernel
  simp only [h4]
  rfl

/-! ### C35 -/

theorem filename_build {s : Str} {r : FileNameData} (h : parseFilename s = .ok r) : WFBuild r.build := by
  obtain ⟨vs, _, _, _, _, _, _, h⟩ := (C83_parse_exact s r).mp h
  rcases h with ⟨h, _⟩ | ⟨digits, rest, hb, ⟨k, hk, hat⟩, _⟩
  · intro t ht; rw [h] at ht; cases ht
  · intro t ht
    rw [hk] at ht; injection ht with ht; subst ht
    simp only
    rcases hat with h | ⟨_, rfl⟩
    · exact atoi_digits (fun c hc => isDig_mem.mpr (hb.2.1 c hc)) h
    · decide

/-- C35 (partial): the result has the *lowest* build tag (absent first) among the usable wheels of its version with the
best tag.  The claim wants the highest: `C35_violated`. -/
theorem C35_lowest_build_partial {sort : (Link → Link → Bool) → List Link → List Link} (hp : SortSlice sort)
    {tags : List Pep425.Tag} {links : List Link} {spec : Specifier} {l : Link}
    (h : selectWheel sort tags links spec = some (.ok l)) :
    ∃ info, Usable tags links l info ∧
      ∀ l' i', Usable tags links l' i' → i'.version = info.version →
        Pep425.preference tags i'.tag = Pep425.preference tags info.tag → buildOrder i'.build info.build ≠ .lt := by
  obtain ⟨us, y, sel, h1, h2, h3⟩ := selectWheel_ok h
  obtain ⟨info, hU, hv, hm, hmin, hcase⟩ := (selectWheel_anatomy hp.perm h1 h2 h3).2 l h
  subst hv
  refine ⟨info, hU, ?_⟩
  intro l' i' hU' hv' hpf
  rcases hcase with hone | ⟨minList, rest, hmem, hsort⟩
  · have := hone l' i' hU' hv' hpf.symm
    subst this
    have := hU.2.1.symm.trans hU'.2.1
    injection this with this; subst this
    have : buildOrder info.build info.build = .eq := Std.ReflCmp.compare_self
    simp [this]
  · have hinfo : ∀ x ∈ minList, ∃ i, linkInfo x = some i ∧ WFBuild i.build := by
      intro x hx
      obtain ⟨i, hU, _⟩ := (hmem x).mp hx
      exact ⟨i, linkInfo_some.mpr hU.2.1, filename_build hU.2.1⟩
    have hless : ∀ x ∈ minList, ∀ z ∈ minList, ∃ i j, linkInfo x = some i ∧ linkInfo z = some j ∧
        (buildLess x z = true ↔ buildOrder i.build j.build = .lt) := by
      intro x hx z hz
      obtain ⟨i, hi, wi⟩ := hinfo x hx
      obtain ⟨j, hj, wj⟩ := hinfo z hz
      refine ⟨i, j, hi, hj, ?_⟩
      unfold buildLess
      rw [hi, hj]
      simp only [decide_eq_true_eq]
      exact (C32_build_order wi wj wj).1.1
    have key : ∀ x ∈ minList, ∀ z ∈ minList, ∀ i j, linkInfo x = some i → linkInfo z = some j →
        (buildLess x z = decide (buildOrder i.build j.build = .lt)) := by
      intro x hx z hz i j hi hj
      obtain ⟨i', j', hi', hj', e⟩ := hless x hx z hz
      rw [hi] at hi'; rw [hj] at hj'; injection hi' with hi'; injection hj' with hj'; subst hi'; subst hj'
      rw [Bool.eq_iff_iff, e, decide_eq_true_eq]
    have hweak : StrictWeak buildLess (· ∈ minList) := by
      refine ⟨?_, ?_, ?_⟩
      · intro a ha
        obtain ⟨i, hi, _⟩ := hinfo a ha
        rw [key a ha a ha i i hi hi]
        have : buildOrder i.build i.build = .eq := Std.ReflCmp.compare_self
        simp [this]
      · intro a b c ha hb hc
        obtain ⟨i, hi, _⟩ := hinfo a ha
        obtain ⟨j, hj, _⟩ := hinfo b hb
        obtain ⟨k, hk, _⟩ := hinfo c hc
        rw [key a ha b hb i j hi hj, key b hb c hc j k hj hk, key a ha c hc i k hi hk]
        simp only [decide_eq_true_eq]
        exact Std.TransCmp.lt_trans
      · intro a b c ha hb hc
        obtain ⟨i, hi, _⟩ := hinfo a ha
        obtain ⟨j, hj, _⟩ := hinfo b hb
        obtain ⟨k, hk, _⟩ := hinfo c hc
        rw [key a ha b hb i j hi hj, key b hb c hc j k hj hk, key a ha c hc i k hi hk, key b hb a ha j i hj hi,
          key c hc b hb k j hk hj, key c hc a ha k i hk hi]
        simp only [decide_eq_false_iff_not]
        intro q1 q2 q3 q4
        have eqo : ∀ {x y : Option BuildTag}, buildOrder x y ≠ .lt → buildOrder y x ≠ .lt → buildOrder x y = .eq := by
          intro x y n1 n2
          rw [Std.OrientedCmp.eq_swap (cmp := buildOrder)] at n2
          cases hc : buildOrder x y <;> simp_all
        have e1 := eqo q1 q2
        have e2 := eqo q3 q4
        have e3 : buildOrder i.build k.build = .eq := Std.TransCmp.eq_trans e1 e2
        have e4 : buildOrder k.build i.build = .eq := Std.OrientedCmp.eq_symm e3
        simp [e3, e4]
    have hsorted := hp.sorted buildLess minList hweak
    rw [hsort, List.pairwise_cons] at hsorted
    have hl : l ∈ minList := (hp.perm buildLess minList).mem_iff.mp (by rw [hsort]; simp)
    have hl' : l' ∈ minList := (hmem l').mpr ⟨i', hU', hv', hpf.symm⟩
    have hin : l' ∈ l :: rest := by rw [← hsort]; exact (hp.perm buildLess minList).mem_iff.mpr hl'
    have hfin : buildLess l' l = false := by
      rcases List.mem_cons.mp hin with e | e
      · subst e; exact hweak.irrefl _ hl
      · exact hsorted.1 l' e
    rw [key l' hl' l hl i' info (linkInfo_some.mpr hU'.2.1) (linkInfo_some.mpr hU.2.1)] at hfin
    simpa using hfin

/-- C35 is violated: of builds 1 and 2 of the same wheel, build 1 is returned, whatever the sorting algorithm. -/
theorem C35_violated (sort : (Link → Link → Bool) → List Link → List Link) (hp : SortSlice sort) :
    selectWheel sort [exTag "py3" "none" "any"]
      [exLink "foo-1.0-1-py3-none-any.whl", exLink "foo-1.0-2-py3-none-any.whl"] [] =
      some (.ok (exLink "foo-1.0-1-py3-none-any.whl")) := by
  have h1 : usable [exTag "py3" "none" "any"] [exLink "foo-1.0-1-py3-none-any.whl", exLink "foo-1.0-2-py3-none-any.whl"] =
      some [("1.0".toList, exLink "foo-1.0-1-py3-none-any.whl",
          { epoch := 0, release := [1, 0], pre := none, post := none, dev := none, loc := [] }),
        ("1.0".toList, exLink "foo-1.0-2-py3-none-any.whl",
          { epoch := 0, release := [1, 0], pre := none, post := none, dev := none, loc := [] })] := by decide +kernel
  have h2 : yankedVersions [exLink "foo-1.0-1-py3-none-any.whl", exLink "foo-1.0-2-py3-none-any.whl"] = some [] := by
    decide +kernel
  have h3 : select [] [{ epoch := 0, release := [1, 0], pre := none, post := none, dev := none, loc := [] },
      { epoch := 0, release := [1, 0], pre := none, post := none, dev := none, loc := [] }]
      (some (multiExcluder [excludePreReleases [], yankedAllow []])) =
      some (some { epoch := 0, release := [1, 0], pre := none, post := none, dev := none, loc := [] }) := by decide +kernel
  obtain ⟨l, hl⟩ := (selectWheel_anatomy hp.perm h1 h2 h3).1
  obtain ⟨info, hU, hmin⟩ := C35_lowest_build_partial hp hl
  have hmem := hU.1
  simp only [List.mem_cons, List.not_mem_nil, or_false] at hmem
  rcases hmem with rfl | rfl
  · exact hl
  · exfalso
    have e2 : parseFilename (exLink "foo-1.0-2-py3-none-any.whl").text = .ok ⟨"foo".toList,
        { epoch := 0, release := [1, 0], pre := none, post := none, dev := none, loc := [] }, some ⟨2, []⟩,
        exTag "py3" "none" "any"⟩ := by decide +kernel
    have e1 : parseFilename (exLink "foo-1.0-1-py3-none-any.whl").text = .ok ⟨"foo".toList,
        { epoch := 0, release := [1, 0], pre := none, post := none, dev := none, loc := [] }, some ⟨1, []⟩,
        exTag "py3" "none" "any"⟩ := by decide +kernel
    have := hU.2.1
    rw [e2] at this; injection this with this; subst this
    exact hmin (exLink "foo-1.0-1-py3-none-any.whl") _ ⟨by simp, e1, by decide +kernel⟩ rfl rfl (by decide +kernel)

end Repo
