import Verif.Repo.Spec
import Verif.Bdist.PropsFilename
import Verif.Go.PathLemmas
/-! Properties C36–C40: the simple repository client. -/
namespace Repo
open Go Repo.Spec Bdist Bdist.Spec

/-! ### C36 -/

theorem validName_iff {c : Char} :
    c ∈ "abcdefghijklmnopqrstuvwxyzABCDEFGHIJKLMNOPQRSTUVWXYZ0123456789.-_".toList ↔ validNameChar c = true := by
  constructor
  · intro h; revert c; decide
  · intro h
    have hc : c = Char.ofNat c.toNat := (Char.ofNat_toNat c).symm
    have hlt : c.toNat < 128 := by
      simp only [validNameChar, Bool.or_eq_true, Bool.and_eq_true, decide_eq_true_eq, Pep440.char_le] at h
      rcases h with ((((h | h) | h) | h) | h) | h
      · have : ('z' : Char).toNat = 122 := by decide
        omega
      · have : ('Z' : Char).toNat = 90 := by decide
        omega
      · have : ('9' : Char).toNat = 57 := by decide
        omega
      all_goals subst h; decide
    rw [hc] at h ⊢
    generalize c.toNat = k at h hlt
    revert h
    have : ∀ k < 128, validNameChar (Char.ofNat k) = true →
      Char.ofNat k ∈ "abcdefghijklmnopqrstuvwxyzABCDEFGHIJKLMNOPQRSTUVWXYZ0123456789.-_".toList := by decide +kernel
    exact this k hlt

theorem validName_all {s : Str} : ValidName s ↔ s.all validNameChar = true := by
  rw [List.all_eq_true]
  exact ⟨fun h c hc => validName_iff.mp (h c hc), fun h c hc => validName_iff.mpr (h c hc)⟩

/-- what lower-casing does on the characters of project names -/
theorem lower_valid {c : Char} (h : c ∈ "abcdefghijklmnopqrstuvwxyzABCDEFGHIJKLMNOPQRSTUVWXYZ0123456789.-_".toList) :
    lowerC c = Spec.asciiLower c ∧ lowerC (lowerC c) = lowerC c ∧ (IsSep (lowerC c) = IsSep c) ∧
    (lowerC c = '-' → c = '-') ∧ lowerC c ∈ "abcdefghijklmnopqrstuvwxyz0123456789.-_".toList ∧
    (IsSep c = true → lowerC c = c) := by
  revert c; decide +kernel

theorem collapse_keep {p : Char → Bool} {r c : Char} {s : Str} (h : p c = false) (b : Bool) :
    collapse p r b (c :: s) = c :: collapse p r false s := by
  rw [collapse, if_neg (by simp [h])]

theorem collapse_notStart {p : Char → Bool} {r : Char} {s : Str} (h : ∀ c u, s = c :: u → p c = false) :
    collapse p r true s = collapse p r false s := by
  cases s with
  | nil => rfl
  | cons c s => rw [collapse_keep (h c s rfl), collapse_keep (h c s rfl)]

theorem collapse_run {p : Char → Bool} {r : Char} {w s : Str} (hne : w ≠ []) (hw : ∀ c ∈ w, p c = true)
    (h : ∀ c u, s = c :: u → p c = false) : collapse p r false (w ++ s) = r :: collapse p r false s := by
  have aux : ∀ w : Str, (∀ c ∈ w, p c = true) → collapse p r true (w ++ s) = collapse p r false s := by
    intro w hw
    induction w with
    | nil => exact collapse_notStart h
    | cons c w ih =>
      rw [List.cons_append, collapse, if_pos (hw c (by simp)), if_pos rfl, ih (fun d hd => hw d (by simp [hd]))]
  obtain ⟨c, w, rfl⟩ := List.exists_cons_of_ne_nil hne
  rw [List.cons_append, collapse, if_pos (hw c (by simp)), if_neg (by simp), aux w (fun d hd => hw d (by simp [hd]))]

theorem sameName_of_replaced {s u : Str} (hs : Replaced IsSep '-' s u) (vs : ValidName s) :
    ∀ {t v : Str}, Replaced IsSep '-' t v → ValidName t → toLower u = toLower v → SameName s t := by
  induction hs with
  | nil =>
    intro t v ht _ e
    cases ht with
    | nil => exact .nil
    | keep => simp [toLower] at e
    | run => simp [toLower] at e
  | @keep c s u hc hs ih =>
    intro t v ht vt e
    have vc := vs c (by simp)
    cases ht with
    | nil => simp [toLower] at e
    | @keep d t v hd ht =>
      simp only [toLower, List.map_cons, List.cons.injEq] at e
      have vd := vt d (by simp)
      refine .letter hc hd ?_ (ih (fun x hx => vs x (by simp [hx])) ht (fun x hx => vt x (by simp [hx])) e.2)
      rw [← (lower_valid vc).1, ← (lower_valid vd).1, e.1]
    | @run w t v hne hw hn ht =>
      simp only [toLower, List.map_cons, List.cons.injEq] at e
      have : c = '-' := (lower_valid vc).2.2.2.1 (by rw [e.1]; decide)
      subst this; exact absurd hc (by decide)
  | @run w s u hne hw hn hs ih =>
    intro t v ht vt e
    cases ht with
    | nil => simp [toLower] at e
    | @keep d t v hd ht =>
      simp only [toLower, List.map_cons, List.cons.injEq] at e
      have vd := vt d (by simp)
      have : d = '-' := (lower_valid vd).2.2.2.1 (by rw [← e.1]; decide)
      subst this; exact absurd hd (by decide)
    | @run x t v hne' hw' hn' ht =>
      simp only [toLower, List.map_cons, List.cons.injEq] at e
      exact .seps hne hne' hw hw' hn hn'
        (ih (fun x hx => vs x (by simp [hx])) ht (fun x hx => vt x (by simp [hx])) e.2)

theorem normalize_of_sameName {s t : Str} (h : SameName s t) (vs : ValidName s) (vt : ValidName t) :
    normalize s = normalize t := by
  unfold normalize
  rw [isNameSep_eq]
  induction h with
  | nil => rfl
  | @letter c d s t hc hd e _ ih =>
    rw [collapse_keep hc, collapse_keep hd]
    have := ih (fun x hx => vs x (by simp [hx])) (fun x hx => vt x (by simp [hx]))
    simp only [toLower, List.map_cons, List.cons.injEq]
    exact ⟨by rw [(lower_valid (vs c (by simp))).1, (lower_valid (vt d (by simp))).1, e], this⟩
  | seps hw hx aw ax ns nt _ ih =>
    rw [collapse_run hw aw ns, collapse_run hx ax nt]
    have := ih (fun x hx => vs x (by simp [hx])) (fun x hx => vt x (by simp [hx]))
    simp only [toLower, List.map_cons, List.cons.injEq]
    exact ⟨trivial, this⟩

theorem collapse_mem {p : Char → Bool} {r : Char} {s : Str} {b : Bool} {c : Char} (h : c ∈ collapse p r b s) :
    c = r ∨ (c ∈ s ∧ p c = false) := by
  induction s generalizing b with
  | nil => simp [collapse] at h
  | cons d s ih =>
    rw [collapse] at h
    split at h
    · split at h
      · rcases ih h with h | h
        · exact Or.inl h
        · exact Or.inr ⟨by simp [h.1], h.2⟩
      · simp only [List.mem_cons] at h
        rcases h with h | h
        · exact Or.inl h
        · rcases ih h with h | h
          · exact Or.inl h
          · exact Or.inr ⟨by simp [h.1], h.2⟩
    · rename_i hd
      simp only [List.mem_cons] at h
      rcases h with rfl | h
      · exact Or.inr ⟨by simp, by simpa using hd⟩
      · rcases ih h with h | h
        · exact Or.inl h
        · exact Or.inr ⟨by simp [h.1], h.2⟩

/-- no two separators in a row -/
theorem collapse_noRun {p : Char → Bool} {r : Char} {s : Str} :
    (∀ a b c d, collapse p r false s = a ++ c :: d :: b → ¬ (p c = true ∧ p d = true)) ∧
    (∀ a b c d, collapse p r true s = a ++ c :: d :: b → ¬ (p c = true ∧ p d = true)) ∧
    (∀ c t, collapse p r true s = c :: t → p c = false) := by
  induction s with
  | nil => simp [collapse]
  | cons x s ih =>
    obtain ⟨h1, h2, h3⟩ := ih
    have cons : ∀ {y : Char} {l : Str}, (∀ a b c d, l = a ++ c :: d :: b → ¬ (p c = true ∧ p d = true)) →
        (∀ d t, l = d :: t → p y = true → p d = false) →
        ∀ a b c d, y :: l = a ++ c :: d :: b → ¬ (p c = true ∧ p d = true) := by
      intro y l hl hy a b c d e
      cases a with
      | nil =>
        simp only [List.nil_append, List.cons.injEq] at e
        obtain ⟨rfl, e⟩ := e
        rintro ⟨hc, hd⟩
        have := hy d b e hc
        rw [this] at hd; cases hd
      | cons a0 a =>
        simp only [List.cons_append, List.cons.injEq] at e
        exact hl a b c d e.2
    by_cases hx : p x = true
    · have e1 : collapse p r false (x :: s) = r :: collapse p r true s := by
        rw [collapse, if_pos hx, if_neg (by simp)]
      have e2 : collapse p r true (x :: s) = collapse p r true s := by
        rw [collapse, if_pos hx, if_pos rfl]
      rw [e1, e2]
      exact ⟨cons h2 (fun d t e _ => h3 d t e), h2, h3⟩
    · have hx' : p x = false := by simpa using hx
      rw [collapse_keep hx', collapse_keep hx']
      have := cons (y := x) h1 (fun d t _ hp => by rw [hx'] at hp; cases hp)
      exact ⟨this, this, fun c t e => by injection e with e _; subst e; exact hx'⟩

theorem mem_normalize {s : Str} (hs : ValidName s) {c : Char} (h : c ∈ normalize s) :
    c ∈ "abcdefghijklmnopqrstuvwxyz0123456789-".toList := by
  unfold normalize toLower at h
  rw [List.mem_map] at h
  obtain ⟨d, hd, rfl⟩ := h
  rcases collapse_mem hd with rfl | ⟨hm, hn⟩
  · decide
  · have hv := hs d hm
    have := (show ∀ d ∈ "abcdefghijklmnopqrstuvwxyzABCDEFGHIJKLMNOPQRSTUVWXYZ0123456789.-_".toList,
      isNameSep d = false → lowerC d ∈ "abcdefghijklmnopqrstuvwxyz0123456789-".toList by decide +kernel)
    exact this d hv hn

theorem normalize_noRun {s : Str} (hs : ValidName s) : ∀ a b, normalize s ≠ a ++ '-' :: '-' :: b := by
  intro a b e
  unfold normalize toLower at e
  obtain ⟨a', r1, e1, ha, e2⟩ := List.map_eq_append_iff.mp e
  obtain ⟨c, r2, rfl, hc, e3⟩ := List.map_eq_cons_iff.mp e2
  obtain ⟨d, b', rfl, hd, hb⟩ := List.map_eq_cons_iff.mp e3
  have mem : ∀ x ∈ collapse isNameSep '-' false s, lowerC x = '-' → x = '-' := by
    intro x hx hl
    rcases collapse_mem hx with rfl | ⟨hm, _⟩
    · rfl
    · exact (lower_valid (hs x hm)).2.2.2.1 hl
  have c1 := mem c (by rw [e1]; simp) hc
  have d1 := mem d (by rw [e1]; simp) hd
  subst c1 d1
  exact collapse_noRun.1 _ _ _ _ e1 (by decide)

theorem normalize_id {s : Str} (hs : ∀ c ∈ s, c ∈ "abcdefghijklmnopqrstuvwxyz0123456789-".toList)
    (hr : ∀ a b, s ≠ a ++ '-' :: '-' :: b) : normalize s = s := by
  unfold normalize
  have low : ∀ l : Str, (∀ c ∈ l, c ∈ "abcdefghijklmnopqrstuvwxyz0123456789-".toList) → toLower l = l := by
    intro l hl
    induction l with
    | nil => rfl
    | cons c l ih =>
      have := (show ∀ c ∈ "abcdefghijklmnopqrstuvwxyz0123456789-".toList, lowerC c = c by decide) c (hl c (by simp))
      simp only [toLower, List.map_cons, this]
      rw [show l.map lowerC = l from ih (fun d hd => hl d (by simp [hd]))]
  have col : collapse isNameSep '-' false s = s := by
    induction s with
    | nil => rfl
    | cons c s ih =>
      have ih := ih (fun d hd => hs d (by simp [hd])) (fun a b e => hr (c :: a) b (by rw [e]; rfl))
      by_cases hc : isNameSep c = true
      · have : c = '-' := (show ∀ c ∈ "abcdefghijklmnopqrstuvwxyz0123456789-".toList, isNameSep c = true → c = '-' by
          decide) c (hs c (by simp)) hc
        subst this
        rw [collapse, if_pos hc, if_neg (by simp), collapse_notStart, ih]
        intro d u e
        cases hd : isNameSep d with
        | false => rfl
        | true =>
          have : d = '-' := (show ∀ c ∈ "abcdefghijklmnopqrstuvwxyz0123456789-".toList, isNameSep c = true → c = '-' by
            decide) d (hs d (by simp [e])) hd
          subst this
          exact absurd (by rw [e]; rfl) (hr [] u)
      · rw [collapse_keep (by simpa using hc), ih]
  rw [col, low s hs]

/-- C36: for valid project names, normalisation is idempotent; two names have the same normal form exactly when they
are equal up to ASCII case and the choice of separators; the normal form consists of lower-case letters, digits and
single dashes. -/
theorem C36_normalize {s t : Str} (hs : ValidName s) (ht : ValidName t) :
    normalize (normalize s) = normalize s ∧
    (normalize s = normalize t ↔ SameName s t) ∧
    (∀ c ∈ normalize s, c ∈ "abcdefghijklmnopqrstuvwxyz0123456789-".toList) ∧
    (∀ a b, normalize s ≠ a ++ '-' :: '-' :: b) := by
  refine ⟨normalize_id (fun c hc => mem_normalize hs hc) (normalize_noRun hs), ⟨?_, ?_⟩,
    fun c hc => mem_normalize hs hc, normalize_noRun hs⟩
  · intro e
    unfold normalize at e
    rw [isNameSep_eq] at e
    exact sameName_of_replaced (collapse_spec IsSep '-' s).1 hs (collapse_spec IsSep '-' t).1 ht e
  · exact fun h => normalize_of_sameName h hs ht

example : ValidName "Foo_.bar".toList ∧ normalize "Foo_.bar".toList = "foo-bar".toList ∧
    normalize "foo..-BAR".toList = "foo-bar".toList := by
  refine ⟨by unfold ValidName; decide +kernel, by decide +kernel, by decide +kernel⟩

/-! ### C37 -/

theorem normalize_ne_nil {s : Str} (h : s ≠ []) : normalize s ≠ [] := by
  unfold normalize toLower
  have := (replaced_mem (collapse_spec isNameSep '-' s).1).2 h
  simpa using this

/-- C37: an accepted, non-empty project name adds exactly one element to the (cleaned) base path, made of lower-case
letters, digits and single dashes only, and equal to the name up to case and separators; a name with any other character is
refused. -/
theorem C37_one_element (base name : Str) (hne : name ≠ []) :
    (ValidName name → ∃ e, e ≠ [] ∧ (∀ c ∈ e, c ∈ "abcdefghijklmnopqrstuvwxyz0123456789-".toList) ∧
      (∀ a b, e ≠ a ++ '-' :: '-' :: b) ∧ SameName e name ∧
      requestPath base name = .ok (
        if base = [] ∨ clean base = ".".toList then e
        else if clean base = "/".toList then '/' :: e
        else clean base ++ '/' :: e)) ∧
    (¬ ValidName name → requestPath base name = .error ()) := by
  constructor
  · intro hv
    have hpl : Plain (normalize name) := by
      have hm := fun c (hc : c ∈ normalize name) => mem_normalize hv hc
      have nd : '.' ∉ normalize name := fun h => absurd (hm _ h) (by decide)
      refine ⟨normalize_ne_nil hne, ?_, ?_, fun h => absurd (hm _ h) (by decide)⟩
      · intro e; rw [e] at nd; exact nd (by simp)
      · intro e; rw [e] at nd; exact nd (by simp)
    have hvn : ValidName (normalize name) := fun c hc => (show ∀ c ∈ "abcdefghijklmnopqrstuvwxyz0123456789-".toList,
      c ∈ "abcdefghijklmnopqrstuvwxyzABCDEFGHIJKLMNOPQRSTUVWXYZ0123456789.-_".toList by decide +kernel) c (mem_normalize hv hc)
    refine ⟨normalize name, hpl.1, fun c hc => mem_normalize hv hc, normalize_noRun hv,
      (C36_normalize hvn hv).2.1.mp (C36_normalize hv hv).1, ?_⟩
    unfold requestPath
    rw [if_pos (validName_all.mp hv)]
    congr 1
    by_cases hb : base = []
    · subst hb
      rw [if_pos (Or.inl rfl)]
      unfold pathJoin
      have : [([] : Str), normalize name].filter (· ≠ []) = [normalize name] := by simp [hpl.1]
      rw [this]
      simp only [join]
      have hr : isRooted (normalize name) = false := by
        have := isRooted_render (rooted := false) (cs := [normalize name]) (by simp [hpl.1, hpl.2.2.2])
        simpa [render, join] using this
      have := clean_render (rooted := false) (cs := [normalize name]) ⟨0, [normalize name], rfl, by simpa using hpl, by simp⟩
      simpa [render, join] using this
    · rw [pathJoin_plain hb hpl]
      have hce : CleanElems (isRooted base) (cleanElems (isRooted base) (split '/' base)) :=
        cleanElems_ok (fun _ hc => split_no_sep hc)
      have ecl : clean base = render (isRooted base) (cleanElems (isRooted base) (split '/' base)) := rfl
      generalize cleanElems (isRooted base) (split '/' base) = cs at hce ecl
      rw [ecl]
      have jn : ∀ cs : List Str, cs ≠ [] → join ['/'] (cs ++ [normalize name]) = join ['/'] cs ++ '/' :: normalize name := by
        intro cs
        induction cs with
        | nil => intro h; exact absurd rfl h
        | cons c cs ih =>
          intro _
          cases cs with
          | nil => simp [join]
          | cons d cs =>
            have e1 : join ['/'] (c :: (d :: cs ++ [normalize name])) =
                c ++ ['/'] ++ join ['/'] (d :: cs ++ [normalize name]) := by
              rw [join_cons (by simp)]
            have e2 : join ['/'] (c :: d :: cs) = c ++ ['/'] ++ join ['/'] (d :: cs) := by
              rw [join_cons (by simp)]
            rw [List.cons_append, e1, ih (by simp), e2]
            simp
      cases hr : isRooted base with
      | true =>
        cases cs with
        | nil => simp [render, join, hb]
        | cons c cs =>
          have hj := join_ne_nil (cs := c :: cs) (by simp) (fun x hx => (hce.elem x hx).1)
          simp only [render, if_true, jn (c :: cs) (by simp)]
          rw [if_neg (by simp [hb]), if_neg (by simp [hj])]
          rfl
      | false =>
        cases cs with
        | nil => simp [render, join]
        | cons c cs =>
          have h1 : render false (c :: cs) ≠ ['.'] := by
            intro e
            have := render_inj (r := false) (r' := false) (cs := c :: cs) (cs' := []) (hr ▸ hce)
              ⟨0, [], rfl, by simp, by simp⟩ (by rw [e]; rfl)
            simp at this
          have h2 : render false (c :: cs) ≠ ['/'] := by
            intro e
            have := isRooted_render (rooted := false) (cs := c :: cs) (fun x hx => ⟨(hce.elem x hx).1, (hce.elem x hx).2.2⟩)
            rw [e] at this
            exact absurd this (by decide)
          rw [if_neg (by simp [hb]; exact h1), if_neg (by simpa using h2)]
          simp only [render, Bool.false_eq_true, if_false, List.cons_append, reduceCtorEq]
          rw [← List.cons_append, jn (c :: cs) (by simp)]
  · intro hv
    unfold requestPath
    rw [if_neg (fun h => hv (validName_all.mpr h))]

example : requestPath "/simple/".toList "..".toList = .ok "/simple/-".toList ∧
    requestPath "/simple/".toList "Zope.Interface".toList = .ok "/simple/zope-interface".toList ∧
    requestPath "/simple/".toList "../x".toList = .error () := by decide +kernel

end Repo
