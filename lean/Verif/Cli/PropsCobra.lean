import Verif.Cli.CobraSpec
/-! Helper lemmas on the command line and property C111. -/
namespace Cobra
open Go
open Spec

/-- what the parser needs to know of a list of flags -/
structure Good (fs : List Flag) : Prop where
  name : ∀ f ∈ fs, ∀ g ∈ fs, f.name = g.name → f = g
  short : ∀ f ∈ fs, ∀ g ∈ fs, f.short.isSome = true → f.short = g.short → f = g
  noEq : ∀ f ∈ fs, '=' ∉ f.name
  noDash : ∀ f ∈ fs, f.name ≠ [] ∧ f.name.head? ≠ some '-'

theorem own_eq (c : Cmd) : flagsOf c = own c := by
  cases c <;> decide +kernel

theorem flags_eq (c : Cmd) : flagsOf c ++ [helpFlag] = flags c := by
  rw [own_eq]; rfl

theorem good_flags (c : Cmd) : Good (flags c) := by
  cases c <;> exact ⟨by decide +kernel, by decide +kernel, by decide +kernel, by decide +kernel⟩

theorem find_short {fs : List Flag} (hg : Good fs) {f : Flag} {c : Char} (hf : f ∈ fs) (hs : f.short = some c) :
    fs.find? (fun f => f.short == some c) = some f := by
  cases h : fs.find? (fun f => f.short == some c) with
  | none => exact absurd (by simp [hs]) (List.find?_eq_none.mp h f hf)
  | some g =>
    have h1 : g.short = some c := by simpa using List.find?_some h
    rw [hg.short f hf g (List.mem_of_find?_eq_some h) (by simp [hs]) (by rw [hs, h1])]

theorem find_name {fs : List Flag} (hg : Good fs) {f : Flag} (hf : f ∈ fs) :
    fs.find? (fun g => g.name == f.name) = some f := by
  cases h : fs.find? (fun g => g.name == f.name) with
  | none => exact absurd (by simp) (List.find?_eq_none.mp h f hf)
  | some g =>
    have h1 : g.name = f.name := by simpa using List.find?_some h
    rw [hg.name f hf g (List.mem_of_find?_eq_some h) h1.symm]

theorem splitEq_plain {n : Str} (h : '=' ∉ n) : splitEq n = (n, none) := by
  induction n with
  | nil => rfl
  | cons c n ih =>
    have h1 : c ≠ '=' := fun e => h (by simp [e])
    simp [splitEq, h1, ih (fun e => h (List.mem_cons_of_mem _ e))]

theorem splitEq_eq {n v : Str} (h : '=' ∉ n) : splitEq (n ++ '=' :: v) = (n, some v) := by
  induction n with
  | nil => simp [splitEq]
  | cons c n ih =>
    have h1 : c ≠ '=' := fun e => h (by simp [e])
    simp [splitEq, h1, ih (fun e => h (List.mem_cons_of_mem _ e))]

theorem splitEq_join (s : Str) :
    s = (splitEq s).1 ++ (match (splitEq s).2 with | none => [] | some v => '=' :: v) := by
  induction s with
  | nil => rfl
  | cons c s ih =>
    by_cases h : c = '='
    · simp [splitEq, h]
    · simp only [splitEq, h, if_false, List.cons_append]
      rw [← ih]

theorem prefix_iff (s : Str) : "test.".toList.isPrefixOf s = true ↔ ∃ t, s = "test.".toList ++ t := by
  rw [List.isPrefixOf_iff_prefix]
  constructor
  · rintro ⟨t, h⟩; exact ⟨t, h.symm⟩
  · rintro ⟨t, h⟩; exact ⟨t, h.symm⟩

theorem eqValue_iff (s : Str) : (s.head? = some '=' ∧ 2 ≤ s.length) ↔ ∃ v, v ≠ [] ∧ s = '=' :: v := by
  constructor
  · rintro ⟨h1, h2⟩
    match s, h1, h2 with
    | c :: d :: s, h1, _ => exact ⟨d :: s, by simp, by simpa using h1⟩
  · rintro ⟨v, h1, rfl⟩
    match v, h1 with
    | d :: v, _ => simp

theorem shorts_sound {isInt : Str → Bool} {fs : List Flag} :
    ∀ {s : Str} {us : List Use} {p : Option Flag}, shorts isInt fs s = some (us, p) → Shorts isInt fs s us p
  | [], us, p, h => by
    simp only [shorts, Option.some.injEq, Prod.mk.injEq] at h
    rw [← h.1, ← h.2]; exact .nil
  | c :: s, us, p, h => by
    rw [shorts] at h
    by_cases ht : "test.".toList.isPrefixOf (c :: s) = true
    · rw [if_pos ht] at h
      simp only [Option.some.injEq, Prod.mk.injEq] at h
      obtain ⟨t, ht⟩ := (prefix_iff _).mp ht
      rw [← h.1, ← h.2, ht]; exact .testing t
    rw [if_neg ht] at h
    have ht' : ∀ t, c :: s ≠ "test.".toList ++ t := fun t e => ht ((prefix_iff _).mpr ⟨t, e⟩)
    cases hf : fs.find? (fun f => f.short == some c) with
    | none => rw [hf] at h; exact nomatch h
    | some f =>
      rw [hf] at h
      have hm := List.mem_of_find?_eq_some hf
      have hs : f.short = some c := by simpa using List.find?_some hf
      simp only at h
      by_cases he : s.head? = some '=' ∧ 2 ≤ s.length
      · rw [if_pos he] at h
        obtain ⟨v, hv, rfl⟩ := (eqValue_iff _).mp he
        replace h : (if accepts isInt f.kind v = true then some ([(f.name, v)], none) else none) = some (us, p) := h
        by_cases ha : accepts isInt f.kind v = true
        · rw [if_pos ha] at h
          simp only [Option.some.injEq, Prod.mk.injEq] at h
          rw [← h.1, ← h.2]; exact .eq f c v hm hs hv ha
        · rw [if_neg ha] at h; exact nomatch h
      · rw [if_neg he] at h
        have he' : ∀ v, v ≠ [] → s ≠ '=' :: v := fun v hv e => he ((eqValue_iff _).mpr ⟨v, hv, e⟩)
        by_cases hk : f.kind = .bool
        · rw [if_pos hk] at h
          cases hr : shorts isInt fs s with
          | none => rw [hr] at h; exact nomatch h
          | some q =>
            obtain ⟨us', p'⟩ := q
            rw [hr] at h
            simp only [Option.some.injEq, Prod.mk.injEq] at h
            rw [← h.1, ← h.2]
            exact .switch f c s us' p' hm hs hk he' ht' (shorts_sound hr)
        · rw [if_neg hk] at h
          by_cases hn : s ≠ []
          · rw [if_pos hn] at h
            by_cases ha : accepts isInt f.kind s = true
            · rw [if_pos ha] at h
              simp only [Option.some.injEq, Prod.mk.injEq] at h
              rw [← h.1, ← h.2]; exact .value f c s hm hs hk hn he' ht' ha
            · rw [if_neg ha] at h; exact nomatch h
          · rw [if_neg hn] at h
            simp only [Option.some.injEq, Prod.mk.injEq] at h
            rw [← h.1, ← h.2, Classical.not_not.mp hn]; exact .next f c hm hs hk

theorem shorts_complete {isInt : Str → Bool} {fs : List Flag} (hg : Good fs) {s : Str} {us : List Use}
    {p : Option Flag} (h : Shorts isInt fs s us p) : shorts isInt fs s = some (us, p) := by
  induction h with
  | nil => rfl
  | testing s =>
    have : "test.".toList ++ s = 't' :: ("est.".toList ++ s) := rfl
    rw [this, shorts, if_pos ((prefix_iff ('t' :: ("est.".toList ++ s))).mpr ⟨s, rfl⟩)]
  | eq f c v hm hs hv ha =>
    rw [shorts, if_neg (fun h => by obtain ⟨t, h⟩ := (prefix_iff _).mp h; simp at h), find_short hg hm hs]
    simp only
    rw [if_pos ((eqValue_iff _).mpr ⟨v, hv, rfl⟩), List.tail_cons, if_pos ha]
  | switch f c s us p hm hs hk he ht _ ih =>
    rw [shorts, if_neg (fun h => by obtain ⟨t, h⟩ := (prefix_iff _).mp h; exact ht t h), find_short hg hm hs]
    simp only
    rw [if_neg (fun h => by obtain ⟨v, hv, e⟩ := (eqValue_iff _).mp h; exact he v hv e), if_pos hk, ih]
  | value f c v hm hs hk hv he ht ha =>
    rw [shorts, if_neg (fun h => by obtain ⟨t, h⟩ := (prefix_iff _).mp h; exact ht t h), find_short hg hm hs]
    simp only
    rw [if_neg (fun h => by obtain ⟨v, hv, e⟩ := (eqValue_iff _).mp h; exact he v hv e), if_neg hk, if_pos hv,
      if_pos ha]
  | next f c hm hs hk =>
    rw [shorts, if_neg (fun h => by obtain ⟨t, h⟩ := (prefix_iff _).mp h; simp at h), find_short hg hm hs]
    simp only
    rw [if_neg (by simp), if_neg hk, if_neg (by simp)]

theorem long_name {isInt : Str → Bool} {fs : List Flag} (hg : Good fs) {f : Flag} (hf : f ∈ fs) :
    long isInt fs f.name
      = if f.kind = .bool then some ([(f.name, "true".toList)], none) else some ([], some f) := by
  have h1 := hg.noDash f hf
  have h2 : f.name.head? ≠ some '=' := fun e => hg.noEq f hf (List.mem_of_mem_head? (by simp [e]))
  rw [long, if_neg (by simp [h1, h2]), splitEq_plain (hg.noEq f hf)]
  simp only
  rw [find_name hg hf]

theorem long_eq {isInt : Str → Bool} {fs : List Flag} (hg : Good fs) {f : Flag} (hf : f ∈ fs) (v : Str) :
    long isInt fs (f.name ++ '=' :: v)
      = if accepts isInt f.kind v then some ([(f.name, v)], none) else none := by
  have h1 := hg.noDash f hf
  have h2 : f.name.head? ≠ some '=' := fun e => hg.noEq f hf (List.mem_of_mem_head? (by simp [e]))
  have h3 : ¬ (f.name ++ '=' :: v = [] ∨ (f.name ++ '=' :: v).head? = some '-'
      ∨ (f.name ++ '=' :: v).head? = some '=') := by
    cases hn : f.name with
    | nil => exact absurd hn h1.1
    | cons c n => rw [hn] at h1 h2; simpa using ⟨by simpa using h1.2, by simpa using h2⟩
  rw [long, if_neg h3, splitEq_eq (hg.noEq f hf)]
  simp only
  rw [find_name hg hf]

theorem long_sound {isInt : Str → Bool} {fs : List Flag} {s : Str} {us : List Use} {p : Option Flag}
    (h : long isInt fs s = some (us, p)) :
    ∃ f ∈ fs, (∃ v, s = f.name ++ '=' :: v ∧ accepts isInt f.kind v = true ∧ us = [(f.name, v)] ∧ p = none)
      ∨ (s = f.name ∧ f.kind = .bool ∧ us = [(f.name, "true".toList)] ∧ p = none)
      ∨ (s = f.name ∧ f.kind ≠ .bool ∧ us = [] ∧ p = some f) := by
  rw [long] at h
  split at h
  · exact nomatch h
  cases hf : fs.find? (fun f => f.name == (splitEq s).1) with
  | none => rw [hf] at h; exact nomatch h
  | some f =>
    rw [hf] at h
    have hn : f.name = (splitEq s).1 := by simpa using List.find?_some hf
    have hj := splitEq_join s
    refine ⟨f, List.mem_of_find?_eq_some hf, ?_⟩
    simp only at h
    cases h2 : (splitEq s).2 with
    | some v =>
      rw [h2] at h hj
      simp only at h hj
      by_cases ha : accepts isInt f.kind v = true
      · rw [if_pos ha] at h
        simp only [Option.some.injEq, Prod.mk.injEq] at h
        exact .inl ⟨v, by rw [hn]; exact hj, ha, h.1.symm, h.2.symm⟩
      · rw [if_neg ha] at h; exact nomatch h
    | none =>
      rw [h2] at h hj
      simp only [List.append_nil] at h hj
      by_cases hk : f.kind = .bool
      · rw [if_pos hk] at h
        simp only [Option.some.injEq, Prod.mk.injEq] at h
        exact .inr (.inl ⟨by rw [hn]; exact hj, hk, h.1.symm, h.2.symm⟩)
      · rw [if_neg hk] at h
        simp only [Option.some.injEq, Prod.mk.injEq] at h
        exact .inr (.inr ⟨by rw [hn]; exact hj, hk, h.1.symm, h.2.symm⟩)

theorem operand_iff (a : Str) : (a.head? ≠ some '-' ∨ a.length = 1) ↔ ∀ s, s ≠ [] → a ≠ '-' :: s := by
  match a with
  | [] => simp
  | [c] =>
    simp only [List.length_cons, List.length_nil, Nat.zero_add, or_true, true_iff]
    intro s hs e
    exact hs (by injection e with _ e; exact e.symm)
  | c :: d :: a =>
    simp only [List.head?_cons, ne_eq, Option.some.injEq, List.length_cons, List.cons.injEq, not_and]
    constructor
    · rintro (h | h)
      · exact fun _ _ e => absurd e h
      · omega
    · exact fun h => .inl fun e => h (d :: a) (by simp) e rfl

/-- the parser, on an argument that uses flags -/
theorem parse_flag {isInt : Str → Bool} {fs : List Flag} {s : Str} (hs : s ≠ []) (hd : s ≠ "-".toList)
    (args : List Str) :
    parse isInt fs (('-' :: s) :: args) =
      match (if s.head? = some '-' then long isInt fs s.tail else shorts isInt fs s) with
      | none => none
      | some (us, none) =>
        match parse isInt fs args with
        | none => none
        | some (us', as) => some (us ++ us', as)
      | some (us, some f) =>
        match args with
        | [] => none
        | v :: args =>
          if accepts isInt f.kind v then
            match parse isInt fs args with
            | none => none
            | some (us', as) => some (us ++ (f.name, v) :: us', as)
          else none := by
  rw [parse.eq_2, if_neg (fun h => (operand_iff _).mp h s hs rfl),
    if_neg (fun h => hd (by simpa using h)), List.tail_cons]
  rfl

theorem parse_complete {isInt : Str → Bool} {fs : List Flag} (hg : Good fs) {l : List Str} {us : List Use}
    {as : List Str} (h : Line isInt fs l us as) : parse isInt fs l = some (us, as) := by
  induction h with
  | nil => rfl
  | operand a l us as ha _ ih => rw [parse, if_pos ((operand_iff a).mpr ha), ih]
  | dashes as => rw [parse, if_neg (by decide), if_pos rfl]
  | longEq f v l us as hf ha _ ih =>
    rw [List.cons_append, parse_flag (by simp) (by
      intro h; simp at h), if_pos (by rfl), List.cons_append, List.tail_cons, long_eq hg hf, if_pos ha, ih]
    rfl
  | longSwitch f l us as hf hk _ ih =>
    rw [parse_flag (by simp) (by
      have := (hg.noDash f hf).1; simpa using this), if_pos (by rfl), List.tail_cons, long_name hg hf, if_pos hk, ih]
    rfl
  | longNext f v l us as hf hk ha _ ih =>
    rw [parse_flag (by simp) (by
      have := (hg.noDash f hf).1; simpa using this), if_pos (by rfl), List.tail_cons, long_name hg hf, if_neg hk]
    simp only
    rw [if_pos ha, ih]
    rfl
  | short s us' l us as hn hd hs _ ih =>
    have h1 : s.head? ≠ some '-' := by
      intro e
      cases s with
      | nil => exact hn rfl
      | cons c s => exact hd s (by simpa using e)
    rw [parse_flag hn (fun e => hd [] e), if_neg h1, shorts_complete hg hs]
    simp only
    rw [ih]
  | shortNext s us' f v l us as hd hs ha _ ih =>
    have hn : s ≠ [] := by rintro rfl; cases hs
    have h1 : s.head? ≠ some '-' := by
      intro e
      cases s with
      | nil => exact hn rfl
      | cons c s => exact hd s (by simpa using e)
    rw [parse_flag hn (fun e => hd [] e), if_neg h1, shorts_complete hg hs]
    simp only
    rw [if_pos ha, ih]

theorem parse_sound {isInt : Str → Bool} {fs : List Flag} : ∀ (n : Nat) {l : List Str}, l.length ≤ n →
    ∀ {us : List Use} {as : List Str}, parse isInt fs l = some (us, as) → Line isInt fs l us as
  | _, [], _, us, as, h => by
    simp only [parse, Option.some.injEq, Prod.mk.injEq] at h
    rw [← h.1, ← h.2]; exact .nil
  | n + 1, a :: l, hl, us, as, h => by
    have hl' : l.length ≤ n := by simpa using hl
    by_cases ho : a.head? ≠ some '-' ∨ a.length = 1
    · rw [parse, if_pos ho] at h
      cases hp : parse isInt fs l with
      | none => rw [hp] at h; exact nomatch h
      | some q =>
        obtain ⟨us', as'⟩ := q
        rw [hp] at h
        simp only [Option.some.injEq, Prod.mk.injEq] at h
        rw [← h.1, ← h.2]
        exact .operand a l us' as' ((operand_iff a).mp ho) (parse_sound n hl' hp)
    obtain ⟨s, hs, rfl⟩ : ∃ s, s ≠ [] ∧ a = '-' :: s := by
      refine Classical.byContradiction fun hc => ho ((operand_iff a).mpr fun s hs e => hc ⟨s, hs, e⟩)
    by_cases hd : s = "-".toList
    · subst hd
      rw [parse, if_neg ho, if_pos (show '-' :: "-".toList = "--".toList from rfl)] at h
      simp only [Option.some.injEq, Prod.mk.injEq] at h
      rw [← h.1, ← h.2]; exact .dashes l
    rw [parse_flag hs hd] at h
    cases hm : (if s.head? = some '-' then long isInt fs s.tail else shorts isInt fs s) with
    | none => rw [hm] at h; exact nomatch h
    | some q =>
      obtain ⟨us₀, p⟩ := q
      rw [hm] at h
      cases p with
      | none =>
        simp only at h
        cases hp : parse isInt fs l with
        | none => rw [hp] at h; exact nomatch h
        | some q =>
          obtain ⟨us', as'⟩ := q
          rw [hp] at h
          simp only [Option.some.injEq, Prod.mk.injEq] at h
          rw [← h.1, ← h.2]
          have hL := parse_sound n hl' hp
          by_cases hh : s.head? = some '-'
          · rw [if_pos hh] at hm
            obtain ⟨t, rfl⟩ : ∃ t, s = '-' :: t := by
              cases s with
              | nil => exact absurd rfl hs
              | cons c t => exact ⟨t, by simpa using hh⟩
            obtain ⟨f, hf, ⟨v, e, ha, eu, _⟩ | ⟨e, hk, eu, _⟩ | ⟨_, _, _, e⟩⟩ := long_sound hm
            · rw [List.tail_cons] at e
              rw [e, eu]; exact .longEq f v l us' as' hf ha hL
            · rw [List.tail_cons] at e
              rw [e, eu]; exact .longSwitch f l us' as' hf hk hL
            · exact nomatch e
          · rw [if_neg hh] at hm
            exact .short s us₀ l us' as' hs (fun t e => hh (by rw [e]; rfl)) (shorts_sound hm) hL
      | some f =>
        cases l with
        | nil => exact nomatch h
        | cons v l =>
          simp only at h
          by_cases ha : accepts isInt f.kind v = true
          · rw [if_pos ha] at h
            cases hp : parse isInt fs l with
            | none => rw [hp] at h; exact nomatch h
            | some q =>
              obtain ⟨us', as'⟩ := q
              rw [hp] at h
              simp only [Option.some.injEq, Prod.mk.injEq] at h
              rw [← h.1, ← h.2]
              have hL := parse_sound n (by simp only [List.length_cons] at hl'; omega) hp
              by_cases hh : s.head? = some '-'
              · rw [if_pos hh] at hm
                obtain ⟨t, rfl⟩ : ∃ t, s = '-' :: t := by
                  cases s with
                  | nil => exact absurd rfl hs
                  | cons c t => exact ⟨t, by simpa using hh⟩
                obtain ⟨g, hf, ⟨_, _, _, _, e⟩ | ⟨_, _, _, e⟩ | ⟨e, hk, eu, ep⟩⟩ := long_sound hm
                · exact nomatch e
                · exact nomatch e
                · rw [List.tail_cons] at e
                  obtain rfl : f = g := by simpa using ep
                  rw [e, eu]; exact .longNext f v l us' as' hf hk ha hL
              · rw [if_neg hh] at hm
                exact .shortNext s us₀ f v l us' as' (fun t e => hh (by rw [e]; rfl)) (shorts_sound hm) ha hL
          · rw [if_neg ha] at h; exact nomatch h

/-- the parser accepts exactly the grammar -/
theorem parse_iff (isInt : Str → Bool) (c : Cmd) (l : List Str) (us : List Use) (as : List Str) :
    parse isInt (flags c) l = some (us, as) ↔ Line isInt (flags c) l us as :=
  ⟨parse_sound l.length (Nat.le_refl _), parse_complete (good_flags c)⟩

theorem helpAsked_iff (us : List Use) : helpAsked us = true ↔ Help us := by
  unfold helpAsked Help
  induction us with
  | nil => simp
  | cons u us ih =>
    by_cases hu : u.1 = "help".toList
    · rw [List.filter_cons_of_pos (by simp [hu])]
      cases hf : us.filter (fun u => u.1 == "help".toList) with
      | nil =>
        have hn : ∀ x ∈ us, x.1 ≠ "help".toList := by
          intro x hx e
          have : x ∈ us.filter (fun u => u.1 == "help".toList) := List.mem_filter.mpr ⟨hx, by simp [e]⟩
          rw [hf] at this; exact nomatch this
        constructor
        · intro h
          refine ⟨[], u.2, us, ?_, by simpa using h, hn⟩
          rw [List.nil_append, ← hu]
        · rintro ⟨us₁, v, us₂, e, hv, _⟩
          cases us₁ with
          | nil =>
            rw [List.nil_append] at e
            injection e with e1 e2
            subst e1
            simpa using hv
          | cons a us₁ =>
            rw [List.cons_append] at e
            injection e with _ e2
            exact absurd rfl (hn ("help".toList, v) (by rw [e2]; simp))
      | cons x xs =>
        rw [hf] at ih
        rw [List.getLast?_cons_cons]
        rw [ih]
        constructor
        · rintro ⟨us₁, v, us₂, e, h⟩
          exact ⟨u :: us₁, v, us₂, by rw [e]; rfl, h⟩
        · rintro ⟨us₁, v, us₂, e, hv, hn⟩
          cases us₁ with
          | nil =>
            rw [List.nil_append] at e
            injection e with _ e2
            have h1 : x ∈ us.filter (fun u => u.1 == "help".toList) := by rw [hf]; simp
            rw [List.mem_filter] at h1
            exact absurd (by simpa using h1.2) (hn x (by rw [← e2]; exact h1.1))
          | cons a us₁ =>
            rw [List.cons_append] at e
            injection e with _ e2
            exact ⟨us₁, v, us₂, e2, hv, hn⟩
    · rw [List.filter_cons_of_neg (by simpa using hu), ih]
      constructor
      · rintro ⟨us₁, v, us₂, e, h⟩
        exact ⟨u :: us₁, v, us₂, by rw [e]; rfl, h⟩
      · rintro ⟨us₁, v, us₂, e, hv, hn⟩
        cases us₁ with
        | nil =>
          rw [List.nil_append] at e
          injection e with e1 _
          exact absurd (by rw [e1]) hu
        | cons a us₁ =>
          rw [List.cons_append] at e
          injection e with _ e2
          exact ⟨us₁, v, us₂, e2, hv, hn⟩

theorem missing_iff (c : Cmd) (us : List Use) : missing c us = false ↔ HasRequired c us := by
  unfold missing HasRequired
  rw [own_eq]
  rw [List.any_eq_false]
  constructor
  · intro h f hf hr
    have := h f hf
    simp only [hr, Bool.true_and, Bool.not_eq_true', Bool.not_eq_false] at this
    obtain ⟨u, hu, e⟩ := List.any_eq_true.mp this
    exact ⟨u, hu, by simpa using e⟩
  · intro h f hf
    cases hr : f.required with
    | false => simp
    | true =>
      obtain ⟨u, hu, e⟩ := h f hf hr
      simp only [Bool.true_and, Bool.not_eq_true', Bool.not_eq_false]
      exact List.any_eq_true.mpr ⟨u, hu, by simp [e]⟩

theorem argsOk_iff {c : Cmd} {ws : List Str} (hw : words c = some ws) (as : List Str) :
    argsOk c as = true ↔ operands c as.length := by
  cases c <;> simp_all [words, argsOk, operands]

theorem firstWord_word (fs : List Flag) {w : Str} (hw : w ≠ []) (hd : w.head? ≠ some '-') (l : List Str) :
    firstWord fs (w :: l) = some w := by
  have h1 : w ≠ "--".toList := by rintro rfl; exact hd rfl
  have h2 : takesNext fs w = false := by
    cases w with
    | nil => exact absurd rfl hw
    | cons c w =>
      have h3 : ¬ ('-' = c) := fun e => hd (by rw [← e]; rfl)
      have h4 : ¬ (c = '-') := fun e => h3 e.symm
      simp [takesNext, h3, h4]
  rw [firstWord.eq_def]
  simp only
  rw [if_neg h1, if_neg (by simp [h2]), if_pos ⟨hw, hd⟩]

theorem find_step (n : Nat) {c d : Cmd} {w : Str} (hw : w ≠ []) (hd : w.head? ≠ some '-')
    (hs : (subs c).find? (fun d => nameOf d == w) = some d) (l : List Str) :
    find (n + 1) c (w :: l) = find n d l := by
  rw [find, firstWord_word _ hw hd]
  simp only
  rw [hs]
  simp only
  rw [List.erase_cons_head]

/-- the words of a command lead to it, whatever follows -/
theorem find_words {c : Cmd} {ws : List Str} (hw : words c = some ws) (l : List Str) :
    find 2 .root (ws ++ l) = (c, l) := by
  cases c <;> simp only [words, Option.some.injEq, reduceCtorEq] at hw <;> subst hw
  case build =>
    exact (find_step 1 (d := .image) (by decide) (by decide) (by decide +kernel) _).trans
        (find_step 0 (by decide) (by decide) (by decide +kernel) l)
  case dir | gobuild | squash | wheel =>
    exact (find_step 1 (d := .layer) (by decide) (by decide) (by decide +kernel) _).trans
        (find_step 0 (by decide) (by decide) (by decide +kernel) l)
  case getwheel | inspect =>
    exact (find_step 1 (d := .python) (by decide) (by decide) (by decide +kernel) _).trans
        (find_step 0 (by decide) (by decide) (by decide +kernel) l)

/-- what becomes of a command line that begins with the words of a command -/
theorem process_words {c : Cmd} {ws : List Str} (hw : words c = some ws) (isInt : Str → Bool)
    (exec : Cmd → List Use → List Str → Bool) (l : List Str) :
    process isInt exec (ws ++ l) =
      match parse isInt (flags c) l with
      | none => ⟨2, none⟩
      | some (us, as) =>
        if helpAsked us then ⟨0, none⟩
        else if !argsOk c as then ⟨2, none⟩
        else if missing c us then ⟨1, none⟩
        else ⟨if exec c us as then 0 else 1, some (c, us, as)⟩ := by
  rw [process, find_words hw]
  simp only [execute]
  rw [flags_eq c]
  cases parse isInt (flags c) l with
  | none => rfl
  | some q =>
    obtain ⟨us, as⟩ := q
    simp only
    by_cases h1 : helpAsked us = true
    · rw [if_pos h1, if_pos h1]
    rw [if_neg h1, if_neg h1]
    by_cases h2 : (!argsOk c as) = true
    · rw [if_pos h2, if_pos h2]
    rw [if_neg h2, if_neg h2]
    by_cases h3 : missing c us = true
    · rw [if_pos h3, if_pos h3]
    rw [if_neg h3, if_neg h3]
    cases c <;> simp only [words, reduceCtorEq] at hw <;> rfl

/-- **C111** (command lines).  For every command and everything that may follow its words:

* if the rest can be read by the grammar, without asking for help, with the right number of operands and with the
  required flags, then the command is run with exactly these flags and operands, and the status is 0 if the command
  succeeds and 1 if it fails;
* if it can be read and asks for help, nothing is run and the status is 0;
* if it cannot be read, or has the wrong number of operands, nothing is run and the status is 2.

Missing here: that the status is 2 also when a required flag is missing; that is false, see `C111_violated`. -/
theorem C111_lines_partial (isInt : Str → Bool) (exec : Cmd → List Use → List Str → Bool) (c : Cmd) (ws : List Str)
    (hw : words c = some ws) (l : List Str) :
    (∀ us as, Proper isInt c l us as → HasRequired c us →
      process isInt exec (ws ++ l) = ⟨if exec c us as then 0 else 1, some (c, us, as)⟩)
    ∧ (∀ us as, Line isInt (flags c) l us as → Help us → process isInt exec (ws ++ l) = ⟨0, none⟩)
    ∧ ((∀ us as, Line isInt (flags c) l us as → ¬ Help us ∧ ¬ operands c as.length) →
      process isInt exec (ws ++ l) = ⟨2, none⟩) := by
  rw [process_words hw]
  refine ⟨fun us as hp hr => ?_, fun us as hl hh => ?_, fun h => ?_⟩
  · obtain ⟨hl, hh, ho⟩ := hp
    rw [(parse_iff isInt c l us as).mpr hl]
    simp only
    rw [if_neg (fun e => hh ((helpAsked_iff us).mp e)), if_neg (by simp [(argsOk_iff hw as).mpr ho]),
      if_neg (by simp [(missing_iff c us).mpr hr])]
  · rw [(parse_iff isInt c l us as).mpr hl]
    simp only
    rw [if_pos ((helpAsked_iff us).mpr hh)]
  · cases hp : parse isInt (flags c) l with
    | none => rfl
    | some q =>
      obtain ⟨us, as⟩ := q
      obtain ⟨h1, h2⟩ := h us as ((parse_iff isInt c l us as).mp hp)
      simp only
      have h3 : argsOk c as = false := by
        cases ha : argsOk c as with
        | false => rfl
        | true => exact absurd ((argsOk_iff hw as).mp ha) h2
      rw [if_neg (fun e => h1 ((helpAsked_iff us).mp e)), if_pos (by simp [h3])]

theorem find_sublist : ∀ (n : Nat) (c : Cmd) (args : List Str), ((find n c args).2).Sublist args
  | 0, c, args => List.Sublist.refl _
  | n + 1, c, args => by
    rw [find]
    split
    · exact List.Sublist.refl _
    · split
      · exact List.Sublist.refl _
      · exact (find_sublist n _ _).trans List.erase_sublist

theorem firstWord_mem (fs : List Flag) : ∀ (n : Nat) (args : List Str), args.length ≤ n → ∀ w,
    firstWord fs args = some w → w ∈ args
  | _, [], _, w, h => nomatch h
  | n + 1, s :: args, hl, w, h => by
    have hl' : args.length ≤ n := by simpa using hl
    rw [firstWord.eq_def] at h
    simp only at h
    split at h
    · exact nomatch h
    split at h
    · split at h
      · exact nomatch h
      · exact nomatch h
      · rename_i x args' _
        exact List.mem_cons_of_mem _ (List.mem_cons_of_mem _ (firstWord_mem fs n args'
          (by simp only [List.length_cons] at hl'; omega) w h))
    split at h
    · simp only [Option.some.injEq] at h
      rw [h]; exact List.mem_cons_self
    · exact List.mem_cons_of_mem _ (firstWord_mem fs n args hl' w h)

/-- the `help` command is only found by its name -/
theorem find_help : ∀ (n : Nat) (c : Cmd) (args : List Str), c ≠ .help → (find n c args).1 = .help →
    "help".toList ∈ args
  | 0, c, args, hc, h => absurd h hc
  | n + 1, c, args, hc, h => by
    rw [find] at h
    split at h
    · exact absurd h hc
    · rename_i w hw
      split at h
      · exact absurd h hc
      · rename_i d hd
        have hwm := firstWord_mem _ _ args (Nat.le_refl _) w hw
        by_cases hd' : d = .help
        · have h1 : nameOf d = w := by simpa using List.find?_some hd
          rw [hd'] at h1
          rw [show "help".toList = w from h1]; exact hwm
        · exact List.mem_of_mem_erase (find_help n d _ hd' h)

theorem shorts_use {isInt : Str → Bool} {fs : List Flag} {s : Str} {us : List Use} {p : Option Flag}
    (h : Shorts isInt fs s us p) :
    (∀ u ∈ us, ∃ f ∈ fs, f.name = u.1 ∧ accepts isInt f.kind u.2 = true ∧ ∃ c ∈ s, f.short = some c)
    ∧ ∀ f, p = some f → f ∈ fs ∧ ∃ c ∈ s, f.short = some c := by
  induction h with
  | nil => exact ⟨fun u hu => (nomatch hu), fun f e => nomatch e⟩
  | testing s => exact ⟨fun u hu => (nomatch hu), fun f e => nomatch e⟩
  | eq f c v hm hs hv ha =>
    refine ⟨fun u hu => ?_, fun f e => nomatch e⟩
    rw [List.mem_singleton.mp hu]
    exact ⟨f, hm, rfl, ha, c, List.mem_cons_self, hs⟩
  | switch f c s us p hm hs hk he ht _ ih =>
    refine ⟨fun u hu => ?_, fun g e => ?_⟩
    · cases hu with
      | head => exact ⟨f, hm, rfl, by rw [hk]; rfl, c, List.mem_cons_self, hs⟩
      | tail _ hu =>
        obtain ⟨g, h1, h2, h3, d, h4, h5⟩ := ih.1 u hu
        exact ⟨g, h1, h2, h3, d, List.mem_cons_of_mem _ h4, h5⟩
    · obtain ⟨h1, d, h4, h5⟩ := ih.2 g e
      exact ⟨h1, d, List.mem_cons_of_mem _ h4, h5⟩
  | value f c v hm hs hk hv he ht ha =>
    refine ⟨fun u hu => ?_, fun f e => nomatch e⟩
    rw [List.mem_singleton.mp hu]
    exact ⟨f, hm, rfl, ha, c, List.mem_cons_self, hs⟩
  | next f c hm hs hk =>
    refine ⟨fun u hu => (nomatch hu), fun g e => ?_⟩
    obtain rfl : f = g := by simpa using e
    exact ⟨hm, c, List.mem_cons_self, hs⟩

/-- every use of a flag comes from an argument that begins with a dash and has the flag's name or letter in it -/
theorem line_use {isInt : Str → Bool} {fs : List Flag} {l : List Str} {us : List Use} {as : List Str}
    (h : Line isInt fs l us as) : ∀ u ∈ us, ∃ f ∈ fs, f.name = u.1 ∧ accepts isInt f.kind u.2 = true ∧
      ∃ a ∈ l, a.head? = some '-' ∧ ((∀ c ∈ f.name, c ∈ a) ∨ ∃ c ∈ a, f.short = some c) := by
  have up : ∀ {l l' : List Str} {u : Use}, (∀ a ∈ l, a ∈ l') →
      (∃ f ∈ fs, f.name = u.1 ∧ accepts isInt f.kind u.2 = true ∧
        ∃ a ∈ l, a.head? = some '-' ∧ ((∀ c ∈ f.name, c ∈ a) ∨ ∃ c ∈ a, f.short = some c)) →
      ∃ f ∈ fs, f.name = u.1 ∧ accepts isInt f.kind u.2 = true ∧
        ∃ a ∈ l', a.head? = some '-' ∧ ((∀ c ∈ f.name, c ∈ a) ∨ ∃ c ∈ a, f.short = some c) := by
    rintro l l' u hl ⟨f, h1, h2, h3, a, h4, h5⟩
    exact ⟨f, h1, h2, h3, a, hl a h4, h5⟩
  induction h with
  | nil => exact fun u hu => nomatch hu
  | operand a l us as _ _ ih => exact fun u hu => up (fun a ha => List.mem_cons_of_mem _ ha) (ih u hu)
  | dashes as => exact fun u hu => nomatch hu
  | longEq f v l us as hf ha _ ih =>
    intro u hu
    cases hu with
    | head =>
      exact ⟨f, hf, rfl, ha, _, List.mem_cons_self, rfl, .inl fun c hc => by simp [hc]⟩
    | tail _ hu => exact up (fun a ha => List.mem_cons_of_mem _ ha) (ih u hu)
  | longSwitch f l us as hf hk _ ih =>
    intro u hu
    cases hu with
    | head =>
      exact ⟨f, hf, rfl, by rw [hk]; rfl, _, List.mem_cons_self, rfl, .inl fun c hc => by simp [hc]⟩
    | tail _ hu => exact up (fun a ha => List.mem_cons_of_mem _ ha) (ih u hu)
  | longNext f v l us as hf hk ha _ ih =>
    intro u hu
    cases hu with
    | head => exact ⟨f, hf, rfl, ha, _, List.mem_cons_self, rfl, .inl fun c hc => by simp [hc]⟩
    | tail _ hu => exact up (fun a ha => List.mem_cons_of_mem _ (List.mem_cons_of_mem _ ha)) (ih u hu)
  | short s us' l us as hn hd hs _ ih =>
    intro u hu
    rcases List.mem_append.mp hu with hu | hu
    · obtain ⟨f, h1, h2, h3, c, h4, h5⟩ := (shorts_use hs).1 u hu
      exact ⟨f, h1, h2, h3, _, List.mem_cons_self, rfl, .inr ⟨c, List.mem_cons_of_mem _ h4, h5⟩⟩
    · exact up (fun a ha => List.mem_cons_of_mem _ ha) (ih u hu)
  | shortNext s us' g v l us as hd hs ha _ ih =>
    intro u hu
    rcases List.mem_append.mp hu with hu | hu
    · obtain ⟨f, h1, h2, h3, c, h4, h5⟩ := (shorts_use hs).1 u hu
      exact ⟨f, h1, h2, h3, _, List.mem_cons_self, rfl, .inr ⟨c, List.mem_cons_of_mem _ h4, h5⟩⟩
    · cases hu with
      | head =>
        obtain ⟨h1, c, h4, h5⟩ := (shorts_use hs).2 g rfl
        exact ⟨g, h1, rfl, ha, _, List.mem_cons_self, rfl, .inr ⟨c, List.mem_cons_of_mem _ h4, h5⟩⟩
      | tail _ hu => exact up (fun a ha => List.mem_cons_of_mem _ (List.mem_cons_of_mem _ ha)) (ih u hu)

/-- what `execute` says, in terms of the grammar -/
theorem execute_cases (isInt : Str → Bool) (c : Cmd) (l : List Str) :
    (execute isInt c l = .usage ∨ execute isInt c l = .group)
    ∨ (execute isInt c l = .help ∧ (c = .help ∨ ∃ us as, Line isInt (flags c) l us as ∧ Help us))
    ∨ (execute isInt c l = .missing ∧ ∃ us as, Line isInt (flags c) l us as ∧ ¬ HasRequired c us)
    ∨ ∃ us as ws, execute isInt c l = .run c us as ∧ words c = some ws ∧ Proper isInt c l us as
        ∧ HasRequired c us := by
  unfold execute
  rw [flags_eq c]
  cases hp : parse isInt (flags c) l with
  | none => exact .inl (.inl rfl)
  | some q =>
    obtain ⟨us, as⟩ := q
    have hl := (parse_iff isInt c l us as).mp hp
    simp only
    by_cases h1 : helpAsked us = true
    · rw [if_pos h1]
      exact .inr (.inl ⟨rfl, .inr ⟨us, as, hl, (helpAsked_iff us).mp h1⟩⟩)
    rw [if_neg h1]
    by_cases h2 : (!argsOk c as) = true
    · rw [if_pos h2]; exact .inl (.inl rfl)
    rw [if_neg h2]
    by_cases h3 : missing c us = true
    · rw [if_pos h3]
      refine .inr (.inr (.inl ⟨rfl, us, as, hl, fun h => ?_⟩))
      rw [(missing_iff c us).mpr h] at h3; exact nomatch h3
    rw [if_neg h3]
    have h1' : ¬ Help us := fun h => h1 ((helpAsked_iff us).mpr h)
    have h2' : argsOk c as = true := by simpa using h2
    have h3' : HasRequired c us := (missing_iff c us).mp (by simpa using h3)
    have key : ∀ ws, words c = some ws → Proper isInt c l us as := fun ws hw =>
      ⟨hl, h1', (argsOk_iff hw as).mp h2'⟩
    cases c
    case root | image | layer | python => exact .inl (.inr rfl)
    case help => exact .inr (.inl ⟨rfl, .inl rfl⟩)
    all_goals exact .inr (.inr (.inr ⟨us, as, _, rfl, rfl, key _ rfl, h3'⟩))

/-- **C111** (any command line).  Whatever the arguments are: if a command is run, then some of the arguments, in
their order, read by the grammar give the flags and operands it is run with; no help was asked for, the number of
operands is right, all required flags are used, every flag has a value it accepts, and the status is 0 if the command
succeeds and 1 otherwise.  If none is run, then the status is 0 only if help was asked for (an argument is `help`, or
begins with a dash and contains an `h`), and otherwise it is 2, unless a required flag was missing. -/
theorem C111_status_partial (isInt : Str → Bool) (exec : Cmd → List Use → List Str → Bool) (args : List Str) :
    (∀ c us as, (process isInt exec args).ran = some (c, us, as) →
      (∃ l, l.Sublist args ∧ Proper isInt c l us as) ∧ HasRequired c us ∧
      (∀ u ∈ us, ∃ f ∈ flags c, f.name = u.1 ∧ accepts isInt f.kind u.2 = true) ∧
      (process isInt exec args).status = if exec c us as then 0 else 1)
    ∧ ((process isInt exec args).ran = none → (process isInt exec args).status = 0 →
      "help".toList ∈ args ∨ ∃ a ∈ args, a.head? = some '-' ∧ 'h' ∈ a)
    ∧ ((process isInt exec args).ran = none → (process isInt exec args).status ≠ 0 →
      (process isInt exec args).status = 2 ∨
      ((process isInt exec args).status = 1 ∧
        ∃ c l us as, l.Sublist args ∧ Line isInt (flags c) l us as ∧ ¬ HasRequired c us)) := by
  have hsub := find_sublist 2 .root args
  have hhelp := find_help 2 .root args (by decide)
  unfold process
  generalize hc : (find 2 .root args).1 = c at *
  generalize hl : (find 2 .root args).2 = l at *
  rcases execute_cases isInt c l with (h | h) | ⟨h, h'⟩ | ⟨h, us, as, h1, h2⟩ | ⟨us, as, ws, h, hw, h1, h2⟩
  · rw [h]
    exact ⟨fun _ _ _ e => (nomatch e), fun _ e => (nomatch e), fun _ _ => .inl rfl⟩
  · rw [h]
    exact ⟨fun _ _ _ e => (nomatch e), fun _ e => (nomatch e), fun _ _ => .inl rfl⟩
  · rw [h]
    refine ⟨fun _ _ _ e => (nomatch e), fun _ _ => ?_, fun _ e => absurd rfl e⟩
    rcases h' with h' | ⟨us, as, h1, us₁, v, us₂, rfl, hv, _⟩
    · exact .inl (hhelp h')
    · obtain ⟨f, hf, hn, _, a, ha, hd, hh⟩ := line_use h1 ("help".toList, v) (by simp)
      have hfl : f = helpFlag := (good_flags c).name f hf helpFlag (by rw [← flags_eq]; simp) hn
      refine .inr ⟨a, hsub.subset ha, hd, ?_⟩
      rcases hh with hh | ⟨d, hd, hs⟩
      · exact hh 'h' (by rw [hn]; simp)
      · rw [hfl] at hs
        obtain rfl : 'h' = d := by simpa [helpFlag, mk] using hs
        exact hd
  · rw [h]
    exact ⟨fun _ _ _ e => (nomatch e), fun _ e => (nomatch e), fun _ _ => .inr ⟨rfl, c, l, us, as, hsub, h1, h2⟩⟩
  · rw [h]
    refine ⟨fun c' us' as' e => ?_, fun e => (nomatch e), fun e => (nomatch e)⟩
    simp only [Option.some.injEq, Prod.mk.injEq] at e
    obtain ⟨rfl, rfl, rfl⟩ := e
    refine ⟨⟨l, hsub, h1⟩, h2, fun u hu => ?_, rfl⟩
    obtain ⟨f, hf, hn, ha, _⟩ := line_use h1.1 u hu
    exact ⟨f, hf, hn, ha⟩

/-- `ocibuild image build -Ee A=1 --tag=x:1 -c sh base.tar -- -x` -/
def exBuild : List Str :=
  ["-Ee".toList, "A=1".toList, "--tag=x:1".toList, "-csh".toList, "base.tar".toList, "--".toList, "-x".toList]

/-- it can be read, and meets the hypotheses of `C111_lines_partial` -/
example : Proper (fun _ => true) .build exBuild
    [("config.Env.clear".toList, "true".toList), ("config.Env.append".toList, "A=1".toList),
      ("tag".toList, "x:1".toList), ("config.Cmd".toList, "sh".toList)] ["base.tar".toList, "-x".toList]
    ∧ HasRequired .build
    [("config.Env.clear".toList, "true".toList), ("config.Env.append".toList, "A=1".toList),
      ("tag".toList, "x:1".toList), ("config.Cmd".toList, "sh".toList)] := by
  refine ⟨⟨(parse_iff _ _ _ _ _).mp (by decide +kernel), fun h => ?_, by simp [operands]⟩,
    (missing_iff _ _).mp (by decide +kernel)⟩
  rw [← helpAsked_iff] at h
  revert h
  decide +kernel

/-- a line that asks for help, and one that cannot be read -/
example : (∃ us as, Line (fun _ => true) (flags .squash) ["-h".toList] us as ∧ Help us)
    ∧ ∀ us as, ¬ Line (fun _ => true) (flags .squash) ["a".toList, "-x".toList] us as := by
  refine ⟨⟨[("help".toList, "true".toList)], [], (parse_iff _ _ _ _ _).mp (by decide +kernel),
    (helpAsked_iff _).mp (by decide +kernel)⟩, fun us as h => ?_⟩
  have := (parse_iff _ _ _ _ _).mpr h
  rw [show parse (fun _ => true) (flags .squash) ["a".toList, "-x".toList] = none from by decide +kernel] at this
  exact nomatch this

/-- **C111 is violated**: `ocibuild layer wheel x.whl`, without the required `--platform-file`, exits with status 1,
not 2, although nothing was run; and the value of `-t` is lost when it begins with `est.`. -/
theorem C111_violated :
    (∀ isInt exec, process isInt exec ["layer".toList, "wheel".toList, "x.whl".toList] = ⟨1, none⟩)
    ∧ ∀ isInt exec, process isInt exec ["image".toList, "build".toList, "-test.x".toList, "l.tar".toList]
        = ⟨if exec .build [] ["l.tar".toList] then 0 else 1, some (.build, [], ["l.tar".toList])⟩ := by
  constructor
  · intro isInt exec
    rw [show ["layer".toList, "wheel".toList, "x.whl".toList]
      = ["layer".toList, "wheel".toList] ++ ["x.whl".toList] from rfl, process_words (c := .wheel) rfl]
    rfl
  · intro isInt exec
    rw [show ["image".toList, "build".toList, "-test.x".toList, "l.tar".toList]
      = ["image".toList, "build".toList] ++ ["-test.x".toList, "l.tar".toList] from rfl,
      process_words (c := .build) rfl]
    rfl

theorem firstWord_skip (fs : List Flag) {p : List Str} (h : ∀ a ∈ p, a.head? = some '-' ∧ '=' ∈ a) (l : List Str) :
    firstWord fs (p ++ l) = firstWord fs l := by
  induction p with
  | nil => rfl
  | cons a p ih =>
    obtain ⟨h1, h2⟩ := h a List.mem_cons_self
    have h3 : a ≠ "--".toList := by rintro rfl; revert h2; decide
    rw [List.cons_append, firstWord.eq_def]
    simp only
    rw [if_neg h3, if_neg (by simp [takesNext, List.contains_eq_mem, h2]), if_neg (fun e => e.2 h1)]
    exact ih fun a ha => h a (List.mem_cons_of_mem _ ha)

theorem find_skip (n : Nat) {c d : Cmd} {w : Str} (hw : w ≠ []) (hd : w.head? ≠ some '-')
    (hs : (subs c).find? (fun d => nameOf d == w) = some d) {p : List Str}
    (h : ∀ a ∈ p, a.head? = some '-' ∧ '=' ∈ a) (l : List Str) :
    find (n + 1) c (p ++ w :: l) = find n d (p ++ l) := by
  rw [find, firstWord_skip _ h, firstWord_word _ hw hd]
  simp only
  rw [hs]
  simp only
  rw [List.erase_append_right _ (fun hm => hd (h w hm).1), List.erase_cons_head]

/-- **C111** (flags before the words of the command).  Flags spelled with their value, `--name=value` or `-n=value`,
may stand before and between the words of the command: it is as if they followed the words. -/
theorem C111_first (isInt : Str → Bool) (exec : Cmd → List Use → List Str → Bool) (c : Cmd) (w₁ w₂ : Str)
    (hw : words c = some [w₁, w₂]) (p₁ p₂ l : List Str) (h : ∀ a ∈ p₁ ++ p₂, a.head? = some '-' ∧ '=' ∈ a) :
    process isInt exec (p₁ ++ w₁ :: (p₂ ++ w₂ :: l)) = process isInt exec (w₁ :: w₂ :: (p₁ ++ p₂ ++ l)) := by
  have h1 : ∀ a ∈ p₁, a.head? = some '-' ∧ '=' ∈ a := fun a ha => h a (List.mem_append_left _ ha)
  have key : find 2 .root (p₁ ++ w₁ :: (p₂ ++ w₂ :: l)) = (c, p₁ ++ p₂ ++ l) := by
    cases c <;> simp only [words, Option.some.injEq, reduceCtorEq, List.cons.injEq, and_true] at hw <;>
      obtain ⟨rfl, rfl⟩ := hw
    case build =>
      rw [find_skip 1 (d := .image) (by decide) (by decide) (by decide +kernel) h1, ← List.append_assoc]
      exact find_skip 0 (by decide) (by decide) (by decide +kernel) h l
    case dir | gobuild | squash | wheel =>
      rw [find_skip 1 (d := .layer) (by decide) (by decide) (by decide +kernel) h1, ← List.append_assoc]
      exact find_skip 0 (by decide) (by decide) (by decide +kernel) h l
    case getwheel | inspect =>
      rw [find_skip 1 (d := .python) (by decide) (by decide) (by decide +kernel) h1, ← List.append_assoc]
      exact find_skip 0 (by decide) (by decide) (by decide +kernel) h l
  have key2 := find_words hw (p₁ ++ p₂ ++ l)
  unfold process
  rw [key, show w₁ :: w₂ :: (p₁ ++ p₂ ++ l) = [w₁, w₂] ++ (p₁ ++ p₂ ++ l) from rfl, key2]

/-- `ocibuild --tag=x image -e=A=1 build l.tar` meets the hypotheses, and runs `image build` -/
example : words .build = some ["image".toList, "build".toList]
    ∧ (∀ a ∈ ["--tag=x".toList] ++ ["-e=A=1".toList], a.head? = some '-' ∧ '=' ∈ a)
    ∧ process (fun _ => true) (fun _ _ _ => true)
        ["--tag=x".toList, "image".toList, "-e=A=1".toList, "build".toList, "l.tar".toList]
      = ⟨0, some (.build, [("tag".toList, "x".toList), ("config.Env.append".toList, "A=1".toList)], ["l.tar".toList])⟩ :=
  ⟨by decide +kernel, by decide +kernel, by decide +kernel⟩

end Cobra
