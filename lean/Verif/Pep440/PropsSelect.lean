import Verif.Pep440.PropsSpecifier
/-! Properties C19–C21: `Specifier.Select`. -/
namespace Pep440
open Go Spec

/-- `x` is a maximum of `l` (none: `l` is empty) -/
def IsMax (b : Option Ver) (l : List Ver) : Prop :=
  (b = none ↔ l = []) ∧ ∀ x, b = some x → x ∈ l ∧ ∀ y ∈ l, cmpVer x y ≠ .lt

theorem improve_spec {b : Option Ver} {l : List Ver} {c : Ver} (hl : ∀ v ∈ l, WF v) (hc : WF c) (h : IsMax b l) :
    ∃ b', improve b c = some b' ∧ IsMax b' (l ++ [c]) := by
  rcases b with _ | x
  · have : l = [] := h.1.1 rfl
    subst this
    refine ⟨some c, rfl, by simp, ?_⟩
    intro y hy
    injection hy with hy; subst hy
    have : cmpVer c c = .eq := Std.ReflCmp.compare_self
    simp [this]
  · obtain ⟨hx, hm⟩ := h.2 x rfl
    obtain ⟨d, hd, hs⟩ := cmpVer_spec (hl x hx) hc
    unfold improve
    simp only [hd]
    by_cases h0 : d < 0
    · refine ⟨some c, by simp [h0], by simp, ?_⟩
      intro y hy
      injection hy with hy; subst hy
      refine ⟨by simp, ?_⟩
      intro y hy
      rcases List.mem_append.1 hy with hy | hy
      · have h1 : cmpVer x c = .lt := by rw [← hs, ordOf_eq_lt.2 h0]
        have h2 := hm y hy
        intro h3
        exact h2 (Std.TransCmp.lt_trans h1 h3)
      · simp only [List.mem_singleton] at hy; subst hy
        have : cmpVer y y = .eq := Std.ReflCmp.compare_self
        simp [this]
    · refine ⟨some x, by simp [h0], by simp, ?_⟩
      intro y hy
      injection hy with hy; subst hy
      refine ⟨by simp [hx], ?_⟩
      intro y hy
      rcases List.mem_append.1 hy with hy | hy
      · exact hm y hy
      · simp only [List.mem_singleton] at hy; subst hy
        intro h; rw [← hs, ordOf_eq_lt] at h; exact h0 h

/-- the versions `Select` looks at first: matching, and either no exclusion behaviour is given or it says no -/
def first (spec : Specifier) (ex : Option Excl) (c : Ver) : Bool :=
  decide (specMatch spec c = some true) && (match ex with | none => true | some f => decide (f c = some false))
/-- the other matching versions -/
def second (spec : Specifier) (ex : Option Excl) (c : Ver) : Bool :=
  decide (specMatch spec c = some true) && (match ex with | none => false | some f => decide (f c = some true))

theorem selectLoop_spec {spec : Specifier} {ex : Option Excl} (hs : ∀ c ∈ spec, WFClause c) (cs : List Ver)
    (hc : ∀ v ∈ cs, WF v) (hex : ∀ f, ex = some f → ∀ v ∈ cs, f v ≠ none) (b be : Option Ver) (l le : List Ver)
    (hl : ∀ v ∈ l, WF v) (hle : ∀ v ∈ le, WF v) (hb : IsMax b l) (hbe : IsMax be le) :
    ∃ b' be', selectLoop spec ex cs b be = some (b', be') ∧ IsMax b' (l ++ cs.filter (first spec ex)) ∧
      IsMax be' (le ++ cs.filter (second spec ex)) := by
  induction cs generalizing b be l le with
  | nil => exact ⟨b, be, rfl, by simpa using hb, by simpa using hbe⟩
  | cons c cs ih =>
    have hcw := hc c (by simp)
    have hc' : ∀ v ∈ cs, WF v := fun v hv => hc v (by simp [hv])
    have hex' : ∀ f, ex = some f → ∀ v ∈ cs, f v ≠ none := fun f hf v hv => hex f hf v (by simp [hv])
    rw [selectLoop.eq_def]; simp only
    obtain ⟨m, hm⟩ := specMatch_total hs hcw
    rw [hm]
    cases m
    · simp only
      obtain ⟨b', be', e, h1, h2⟩ := ih hc' hex' b be l le hl hle hb hbe
      refine ⟨b', be', e, ?_, ?_⟩
      · rwa [List.filter_cons, if_neg (by simp [first, hm])]
      · rwa [List.filter_cons, if_neg (by simp [second, hm])]
    · simp only
      have two : (first spec ex c = true ∧ second spec ex c = false ∧ asBest ex c = some true) ∨
          (first spec ex c = false ∧ second spec ex c = true ∧ asBest ex c = some false) := by
        rcases ex with _ | f
        · left; simp [first, second, asBest, hm]
        · have := hex f rfl c (by simp)
          rcases hf : f c with _ | (_ | _)
          · exact absurd hf this
          · left; simp [first, second, asBest, hm, hf]
          · right; simp [first, second, asBest, hm, hf]
      rcases two with ⟨f1, f2, e⟩ | ⟨f1, f2, e⟩
      · obtain ⟨b1, e1, m1⟩ := improve_spec hl hcw hb
        obtain ⟨b', be', e2, h1, h2⟩ := ih hc' hex' b1 be (l ++ [c]) le
          (by intro v hv; rcases List.mem_append.1 hv with hv | hv
              · exact hl v hv
              · simp only [List.mem_singleton] at hv; subst hv; exact hcw) hle m1 hbe
        refine ⟨b', be', ?_, ?_, ?_⟩
        · rw [e]; simp only [e1]; exact e2
        · rwa [List.filter_cons, if_pos f1, List.append_cons]
        · rwa [List.filter_cons, if_neg (by simp [f2])]
      · obtain ⟨b1, e1, m1⟩ := improve_spec hle hcw hbe
        obtain ⟨b', be', e2, h1, h2⟩ := ih hc' hex' b b1 l (le ++ [c]) hl
          (by intro v hv; rcases List.mem_append.1 hv with hv | hv
              · exact hle v hv
              · simp only [List.mem_singleton] at hv; subst hv; exact hcw) hb m1
        refine ⟨b', be', ?_, ?_, ?_⟩
        · rw [e]; simp only [e1]; exact e2
        · rwa [List.filter_cons, if_neg (by simp [f1])]
        · rwa [List.filter_cons, if_pos f2, List.append_cons]

theorem select_spec {spec : Specifier} {choices : List Ver} {ex : Option Excl} (hs : ∀ c ∈ spec, WFClause c)
    (hc : ∀ v ∈ choices, WF v) (hex : ∀ f, ex = some f → ∀ v ∈ choices, f v ≠ none) :
    ∃ r, select spec choices ex = some r ∧
      ((choices.filter (first spec ex) ≠ [] ∧ IsMax r (choices.filter (first spec ex))) ∨
       (choices.filter (first spec ex) = [] ∧ IsMax r (choices.filter (second spec ex)))) := by
  have e : IsMax none [] := ⟨by simp, by simp⟩
  obtain ⟨b, be, h, h1, h2⟩ := selectLoop_spec hs choices hc hex none none [] [] (by simp) (by simp) e e
  simp only [List.nil_append] at h1 h2
  unfold select
  rw [h]
  rcases b with _ | x
  · refine ⟨be, rfl, Or.inr ⟨h1.1.1 rfl, h2⟩⟩
  · refine ⟨some x, rfl, Or.inl ⟨fun h0 => ?_, h1⟩⟩
    have := h1.1.2 h0; cases this

/-- C19: on well-formed input `Select` does not panic; it returns nil iff no choice matches, and otherwise a choice
that matches. -/
theorem C19_select_membership {spec : Specifier} {choices : List Ver} {ex : Option Excl}
    (hs : ∀ c ∈ spec, WFClause c) (hc : ∀ v ∈ choices, WF v)
    (hex : ∀ f, ex = some f → ∀ v ∈ choices, f v ≠ none) :
    ∃ r, select spec choices ex = some r ∧
      (r = none ↔ ∀ v ∈ choices, specMatch spec v = some false) ∧
      (∀ v, r = some v → v ∈ choices ∧ specMatch spec v = some true) := by
  obtain ⟨r, hr, h⟩ := select_spec hs hc hex
  have none_iff : choices.filter (first spec ex) = [] → choices.filter (second spec ex) = [] →
      ∀ v ∈ choices, specMatch spec v = some false := by
    intro h1 h2 v hv
    rw [List.filter_eq_nil_iff] at h1 h2
    have a1 := h1 v hv; have a2 := h2 v hv
    obtain ⟨m, hm⟩ := specMatch_total hs (hc v hv)
    rcases m with _ | _
    · exact hm
    · exfalso
      rcases ex with _ | f
      · simp [first, hm] at a1
      · have := hex f rfl v hv
        rcases hf : f v with _ | (_ | _)
        · exact this hf
        · simp [first, hm, hf] at a1
        · simp [second, hm, hf] at a2
  have mem1 : ∀ v ∈ choices.filter (first spec ex), v ∈ choices ∧ specMatch spec v = some true := by
    intro v hv
    rw [List.mem_filter] at hv
    exact ⟨hv.1, by have := hv.2; simp [first] at this; exact this.1⟩
  have mem2 : ∀ v ∈ choices.filter (second spec ex), v ∈ choices ∧ specMatch spec v = some true := by
    intro v hv
    rw [List.mem_filter] at hv
    exact ⟨hv.1, by have := hv.2; simp [second] at this; exact this.1⟩
  have conv : ∀ l : List Ver, (∀ v ∈ l, v ∈ choices ∧ specMatch spec v = some true) →
      (∀ v ∈ choices, specMatch spec v = some false) → l = [] := by
    intro l hl h0
    rcases l with _ | ⟨x, l⟩
    · rfl
    · obtain ⟨a, b⟩ := hl x (by simp)
      rw [h0 x a] at b; cases b
  refine ⟨r, hr, ?_, ?_⟩
  · rcases h with ⟨h1, h2⟩ | ⟨h1, h2⟩
    · rw [h2.1]
      exact ⟨fun h => absurd h h1, fun h => conv _ mem1 h⟩
    · rw [h2.1]
      exact ⟨fun h => none_iff h1 h, fun h => conv _ mem2 h⟩
  · intro v hv
    rcases h with ⟨h1, h2⟩ | ⟨h1, h2⟩
    · exact mem1 v (h2.2 v hv).1
    · exact mem2 v (h2.2 v hv).1

example : (∀ c ∈ ([⟨.ge, sampleRc⟩] : Specifier), WFClause c) ∧ (∀ v ∈ [sample, sampleRc], WF v) ∧
    select [⟨.ge, sampleRc⟩] [sample, sampleRc] (some allowAll) = some (some sample) ∧
    select [⟨.gt, sample⟩] [sample, sampleRc] none = some none :=
  ⟨by simp [WFClause, sampleRc_wf]; simp [sampleRc], by simp [sample_wf, sampleRc_wf], by decide +kernel, by decide +kernel⟩

/-- C20 (partial): without an exclusion behaviour (nil), `Select` returns a latest matching choice; with one, it
returns a latest version among the *disallowed* matching choices if there are any, and otherwise a latest among the
allowed ones.  The claim wants it the other way round: see `C20_violated`.  (C19 says when the result is nil.) -/
theorem C20_select_preference_partial {spec : Specifier} {choices : List Ver} {ex : Option Excl}
    (hs : ∀ c ∈ spec, WFClause c) (hc : ∀ v ∈ choices, WF v)
    (hex : ∀ f, ex = some f → ∀ v ∈ choices, f v ≠ none) :
    ∀ x, select spec choices ex = some (some x) →
      (ex = none → ∀ y ∈ choices, specMatch spec y = some true → cmpVer x y ≠ .lt) ∧
      (∀ f, ex = some f → (∃ y ∈ choices, specMatch spec y = some true ∧ f y = some false) →
        f x = some false ∧
        ∀ y ∈ choices, specMatch spec y = some true → f y = some false → cmpVer x y ≠ .lt) ∧
      (∀ f, ex = some f → (∀ y ∈ choices, specMatch spec y = some true → f y = some true) →
        f x = some true ∧ ∀ y ∈ choices, specMatch spec y = some true → cmpVer x y ≠ .lt) := by
  intro x hx
  obtain ⟨r, hr, h⟩ := select_spec hs hc hex
  rw [hr] at hx; injection hx with hx; subst hx
  refine ⟨?_, ?_, ?_⟩
  · intro he y hy hm
    subst he
    have hf : y ∈ choices.filter (first spec none) := by
      rw [List.mem_filter]; exact ⟨hy, by simp [first, hm]⟩
    rcases h with ⟨h1, h2⟩ | ⟨h1, h2⟩
    · exact (h2.2 x rfl).2 y hf
    · rw [h1] at hf; cases hf
  · rintro f rfl ⟨y0, hy0, hm0, hf0⟩
    have hin : ∀ y ∈ choices, specMatch spec y = some true → f y = some false → y ∈ choices.filter (first spec (some f)) := by
      intro y hy hm hf
      rw [List.mem_filter]; exact ⟨hy, by simp [first, hm, hf]⟩
    rcases h with ⟨h1, h2⟩ | ⟨h1, h2⟩
    · obtain ⟨a, b⟩ := h2.2 x rfl
      rw [List.mem_filter] at a
      refine ⟨by have := a.2; simp [first] at this; exact this.2, fun y hy hm hf => b y (hin y hy hm hf)⟩
    · have := hin y0 hy0 hm0 hf0; rw [h1] at this; cases this
  · rintro f rfl hall
    have hin : ∀ y ∈ choices, specMatch spec y = some true → y ∈ choices.filter (second spec (some f)) := by
      intro y hy hm
      rw [List.mem_filter]; exact ⟨hy, by simp [second, hm, hall y hy hm]⟩
    rcases h with ⟨h1, h2⟩ | ⟨h1, h2⟩
    · exfalso
      obtain ⟨y, hy⟩ := List.exists_mem_of_ne_nil _ h1
      rw [List.mem_filter] at hy
      have := hy.2
      simp [first] at this
      rw [hall y hy.1 this.1] at this; simp at this
    · obtain ⟨a, b⟩ := h2.2 x rfl
      rw [List.mem_filter] at a
      refine ⟨by have := a.2; simp [second] at this; exact this.2, fun y hy hm => b y (hin y hy hm)⟩

example : select [⟨.ge, sampleRc⟩] [sampleRc, sample] none = some (some sample) ∧
    select [⟨.ge, sampleRc⟩] [sampleRc, sample] (some (excludePreReleases [])) = some (some sampleRc) ∧
    select [⟨.gt, sampleRc⟩] [sampleRc, sample] (some (excludePreReleases [])) = some (some sample) := by decide +kernel

/-- C20 is violated: with `ExcludePreReleases{}` and the choices `0.9a1` and `1.0`, `Select` returns the excluded
`0.9a1` although `1.0` is allowed, matches and is later. -/
theorem C20_violated : ∃ a b, parseVersion "0.9a1".toList = .ok a ∧ parseVersion "1.0".toList = .ok b ∧
    excludePreReleases [] a = some false ∧ excludePreReleases [] b = some true ∧
    select [] [a, b] (some (excludePreReleases [])) = some (some a) ∧ cmpVer a b = .lt :=
  ⟨{ epoch := 0, release := [0, 9], pre := some ("a".toList, 1), post := none, dev := none, loc := [] },
   { epoch := 0, release := [1, 0], pre := none, post := none, dev := none, loc := [] }, by decide +kernel⟩

theorem isMax_perm {r r' : Option Ver} {l l' : List Ver} (hp : l.Perm l') (h : IsMax r l) (h' : IsMax r' l') :
    (r = none ↔ r' = none) ∧ ∀ x y, r = some x → r' = some y → cmpVer x y = .eq := by
  refine ⟨?_, ?_⟩
  · rw [h.1, h'.1]
    exact ⟨fun e => by subst e; exact hp.nil_eq.symm, fun e => by subst e; exact hp.eq_nil⟩
  · intro x y hx hy
    have a := h.2 x hx; have b := h'.2 y hy
    have h1 := a.2 y (hp.mem_iff.2 b.1)
    have h2 := b.2 x (hp.mem_iff.1 a.1)
    rw [Std.OrientedCmp.eq_swap (cmp := cmpVer)] at h2
    cases hc : cmpVer x y <;> simp_all

/-- C21: for a permutation of the choices, `Select` returns nil for both or versions that compare equal. -/
theorem C21_select_order_independent {spec : Specifier} {choices choices' : List Ver} {ex : Option Excl}
    (hs : ∀ c ∈ spec, WFClause c) (hc : ∀ v ∈ choices, WF v)
    (hex : ∀ f, ex = some f → ∀ v ∈ choices, f v ≠ none) (hp : choices.Perm choices') :
    ∃ r r', select spec choices ex = some r ∧ select spec choices' ex = some r' ∧
      (r = none ↔ r' = none) ∧ ∀ x y, r = some x → r' = some y → x.cmp y = some 0 := by
  have hc' : ∀ v ∈ choices', WF v := fun v hv => hc v (hp.mem_iff.2 hv)
  have hex' : ∀ f, ex = some f → ∀ v ∈ choices', f v ≠ none := fun f hf v hv => hex f hf v (hp.mem_iff.2 hv)
  obtain ⟨r, hr, h⟩ := select_spec hs hc hex
  obtain ⟨r', hr', h'⟩ := select_spec hs hc' hex'
  have p1 := hp.filter (first spec ex)
  have p2 := hp.filter (second spec ex)
  have key : (r = none ↔ r' = none) ∧ ∀ x y, r = some x → r' = some y → cmpVer x y = .eq := by
    rcases h with ⟨h1, h2⟩ | ⟨h1, h2⟩ <;> rcases h' with ⟨h1', h2'⟩ | ⟨h1', h2'⟩
    · exact isMax_perm p1 h2 h2'
    · rw [h1'] at p1; exact absurd p1.eq_nil h1
    · rw [h1] at p1; exact absurd p1.nil_eq.symm h1'
    · exact isMax_perm p2 h2 h2'
  refine ⟨r, r', hr, hr', key.1, ?_⟩
  intro x y hx hy
  have e := key.2 x y hx hy
  obtain ⟨r0, a, -, a2⟩ := C19_select_membership hs hc hex
  obtain ⟨r1, b, -, b2⟩ := C19_select_membership hs hc' hex'
  rw [hr] at a; injection a with a; subst a
  rw [hr'] at b; injection b with b; subst b
  obtain ⟨d, hd, hsd⟩ := cmpVer_spec (hc x (a2 x hx).1) (hc' y (b2 y hy).1)
  rw [e, ordOf_eq_eq] at hsd
  rw [hd, hsd]

/-- two choices that compare equal but differ: the returned value may depend on the order, its place in the version
order does not -/
example : select [] [sampleRc, { sampleRc with release := [1, 4, 0] }] none = some (some sampleRc) ∧
    select [] [{ sampleRc with release := [1, 4, 0] }, sampleRc] none = some (some { sampleRc with release := [1, 4, 0] }) := by
  decide +kernel

end Pep440
