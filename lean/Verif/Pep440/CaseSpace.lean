import Verif.Pep440.RoundTrip
/-! Lemmas: the parser ignores case, surrounding blanks and a leading `v`. -/
namespace Pep440
open Go Spec

/-! ### case -/

theorem upper_iff {c : Char} : ('A' ≤ c ∧ c ≤ 'Z') ↔ (65 ≤ c.toNat ∧ c.toNat ≤ 90) := by
  rw [char_le, char_le]; exact Iff.rfl

theorem ofNat_toNat32 {c : Char} (h : 65 ≤ c.toNat ∧ c.toNat ≤ 90) : (Char.ofNat (c.toNat + 32)).toNat = c.toNat + 32 := by
  have : (c.toNat + 32).isValidChar := by left; omega
  rw [Char.ofNat, dif_pos this]
  show ((Char.ofNatAux _ _).val).toNat = _
  simp [Char.ofNatAux]; omega

theorem char_ext {c d : Char} (h : c.toNat = d.toNat) : c = d := Char.ext (UInt32.toNat_inj.1 h)

theorem asciiLower_lower {c : Char} (h : ¬ (65 ≤ c.toNat ∧ c.toNat ≤ 90)) : asciiLower c = c := by
  unfold asciiLower; rw [if_neg h]

/-- a class that treats upper and lower case alike -/
theorem stable_of {p : Char → Bool} (h : ∀ c, 65 ≤ c.toNat → c.toNat ≤ 90 → p (Char.ofNat (c.toNat + 32)) = p c) (c : Char) :
    p (asciiLower c) = p c := by
  unfold asciiLower
  split
  · rename_i hc; exact h c hc.1 hc.2
  · rfl

/-- every upper case letter -/
theorem upper_cases {P : Char → Prop} (h : ∀ n : Fin 26, P (Char.ofNat (65 + n.val))) (c : Char) (h1 : 65 ≤ c.toNat)
    (h2 : c.toNat ≤ 90) : P c := by
  have := h ⟨c.toNat - 65, by omega⟩
  have e : Char.ofNat (65 + (c.toNat - 65)) = c := by
    rw [show 65 + (c.toNat - 65) = c.toNat by omega, Char.ofNat_toNat]
  rw [e] at this; exact this

theorem ofNat_inj {n : Nat} (h : n < 128) : (Char.ofNat n).toNat = n := by
  have : n.isValidChar := by left; omega
  rw [Char.ofNat, dif_pos this]
  show ((Char.ofNatAux _ _).val).toNat = _
  simp [Char.ofNatAux]

theorem stable_class {p : Char → Bool} (h : ∀ n : Fin 26, p (Char.ofNat (97 + n.val)) = p (Char.ofNat (65 + n.val))) (c : Char) :
    p (asciiLower c) = p c := by
  apply stable_of
  intro c h1 h2
  apply upper_cases (P := fun c => p (Char.ofNat (c.toNat + 32)) = p c) _ c h1 h2
  intro n
  have e : (Char.ofNat (65 + n.val)).toNat = 65 + n.val := ofNat_inj (by omega)
  simp only [e]
  rw [show 65 + n.val + 32 = 97 + n.val by omega]
  exact h n

theorem lowerC_ascii (c : Char) : lowerC (asciiLower c) = lowerC c := by
  unfold asciiLower
  split
  · rename_i hc
    apply upper_cases (P := fun c => lowerC (Char.ofNat (c.toNat + 32)) = lowerC c) _ c hc.1 hc.2
    decide
  · rfl

theorem stable_lit : ∀ w : Str, (∀ c ∈ w, ∀ d, ci c (asciiLower d) = ci c d) → (Re.lit ci w : Re Grp).stable asciiLower := by
  intro w
  induction w with
  | nil => intro _; simp [Re.lit, Re.stable]
  | cons c w ih =>
    intro h
    cases w with
    | nil => simp only [Re.lit, Re.stable]; exact h c (by simp)
    | cons d w =>
      simp only [Re.lit, Re.stable]
      exact ⟨h c (by simp), ih (fun e he => h e (by simp [he]))⟩

theorem ci_stable {l : Char} (h : l ∈ "abcdefghijklmnopqrstuvwxyz".toList) (d : Char) : ci l (asciiLower d) = ci l d := by
  apply stable_class
  revert l
  decide +kernel

theorem word_stable (s : String) (h : ∀ c ∈ s.toList, c ∈ "abcdefghijklmnopqrstuvwxyz".toList) :
    (reWord s).stable asciiLower := stable_lit _ (fun c hc d => ci_stable (h c hc) d)

theorem dig_stable : (reDigits).stable asciiLower := by
  simp only [reDigits, Re.plus, Re.stable]
  exact ⟨stable_class (by decide), stable_class (by decide)⟩

theorem sep_stable : reSep.stable asciiLower := stable_class (p := isSep) (by decide)

theorem version_stable : reVersion.stable asciiLower := by
  have alnum : (Re.plus (.chr ciAlnum) : Re Grp).stable asciiLower :=
    ⟨stable_class (p := ciAlnum) (by decide), stable_class (p := ciAlnum) (by decide)⟩
  refine ⟨stable_class (p := reSpace) (by decide), ⟨stable_class (p := ci 'v') (by decide), ?_, ?_, ?_, ?_, ?_, ?_⟩,
    stable_class (p := reSpace) (by decide)⟩
  · exact ⟨dig_stable, stable_class (p := lit '!') (by decide)⟩
  · exact ⟨dig_stable, stable_class (p := lit '.') (by decide), dig_stable⟩
  · refine ⟨sep_stable, ?_, sep_stable, dig_stable⟩
    exact ⟨word_stable _ (by decide), word_stable _ (by decide), word_stable _ (by decide), word_stable _ (by decide),
      word_stable _ (by decide), word_stable _ (by decide), word_stable _ (by decide), word_stable _ (by decide)⟩
  · refine ⟨⟨stable_class (p := lit '-') (by decide), dig_stable⟩, sep_stable, ?_, sep_stable, dig_stable⟩
    exact ⟨word_stable _ (by decide), word_stable _ (by decide), word_stable _ (by decide)⟩
  · exact ⟨sep_stable, word_stable _ (by decide), sep_stable, dig_stable⟩
  · exact ⟨stable_class (p := lit '+') (by decide), alnum, stable_class (p := isSep) (by decide), alnum⟩

theorem group_map (m : Caps Grp) (g : Grp) :
    group (m.map (fun x => (x.1, x.2.map asciiLower))) g = (group m g).map asciiLower := by
  unfold group
  rw [List.find?_map]
  simp only [Function.comp_def]
  cases List.find? (fun p : Grp × Str => decide (p.1 = g)) m <;> rfl

theorem map_dig {w : Str} (h : ∀ c ∈ w, isDig c = true ∨ c = '.') : w.map asciiLower = w := by
  induction w with
  | nil => rfl
  | cons c w ih =>
    rw [List.map_cons, ih (fun d hd => h d (by simp [hd])), asciiLower_lower]
    rcases h c (by simp) with hc | rfl
    · rw [isDig_iff] at hc; omega
    · decide

theorem toLower_map (w : Str) : toLower (w.map asciiLower) = toLower w := by
  unfold toLower
  rw [List.map_map]
  apply List.map_congr_left
  intro c _; exact lowerC_ascii c

theorem letterNumber_map (l w : Str) (t : List (Str × List Str)) :
    parseLetterNumber (l.map asciiLower) w t = parseLetterNumber l w t := by
  unfold parseLetterNumber
  simp only [toLower_map, List.map_eq_nil_iff]

theorem fieldsFunc_map {f : Char → Bool} (hf : ∀ c, f (asciiLower c) = f c) (w : Str) :
    fieldsFunc f (w.map asciiLower) = (fieldsFunc f w).map (fun p => p.map asciiLower) := by
  induction w with
  | nil => rfl
  | cons c w ih =>
    rw [List.map_cons, fieldsFunc.eq_def, fieldsFunc.eq_def f (c :: w)]
    simp only [hf]
    split
    · exact ih
    · cases w with
      | nil => rfl
      | cons d w =>
        simp only [List.map_cons, hf]
        split
        · rw [← List.map_cons, ih]; rfl
        · rw [← List.map_cons, ih]
          rcases fieldsFunc f (d :: w) with _ | ⟨p, ps⟩ <;> simp

theorem parse_case (s : Str) : parseVersion (s.map asciiLower) = parseVersion s := by
  have e : reVersion.matchFull (s.map asciiLower) =
      (reVersion.matchFull s).map (fun m => m.map (fun x => (x.1, x.2.map asciiLower))) := by
    unfold Re.matchFull
    rw [Re.run_map asciiLower reVersion version_stable, List.find?_map]
    simp only [Option.map_map, Function.comp_def]
    congr 1
    congr 1
    funext p
    simp [mapCaps]
  unfold parseVersion
  rw [e]
  rcases hm : reVersion.matchFull s with _ | m
  · rfl
  · have hg := group_ok (match_caps hm)
    have hd : ∀ g : Grp, (∀ c ∈ group m g, isDig c = true ∨ c = '.') →
        group (m.map (fun x => (x.1, x.2.map asciiLower))) g = group m g := by
      intro g h; rw [group_map, map_dig h]
    simp only [Option.map_some]
    unfold fromCaps
    simp only [hd .epoch (fun c hc => Or.inl (hg .epoch c hc)), hd .release (fun c hc => hg .release c hc),
      hd .preN (fun c hc => Or.inl (hg .preN c hc)), hd .postN1 (fun c hc => Or.inl (hg .postN1 c hc)),
      hd .postN2 (fun c hc => Or.inl (hg .postN2 c hc)), hd .devN (fun c hc => Or.inl (hg .devN c hc)),
      group_map m .preL, group_map m .postL, group_map m .devL, group_map m .loc, letterNumber_map]
    have : (fieldsFunc isSep ((group m .loc).map asciiLower)).map (fun p => parseSeg (toLower p)) =
        (fieldsFunc isSep (group m .loc)).map (fun p => parseSeg (toLower p)) := by
      rw [fieldsFunc_map (stable_class (p := isSep) (by decide)), List.map_map]
      apply List.map_congr_left
      intro p _
      simp only [Function.comp, toLower_map]
    rw [this]

/-! ### blanks -/

theorem rel_none {β : Type} {c : Char} (h : isDig c = false) (t : Str) (X : Re Grp) (k : Caps Grp → Str → Option β) :
    (Re.seq reEpoch (.seq reRelease X)).first (c :: t) k = none := by
  have hd : ∀ {β : Type} (k : Caps Grp → Str → Option β), reDigits.first (c :: t) k = none :=
    fun k => Re.first_plus_none k (notStart_cons h)
  rw [Re.first_seq, reEpoch, first_opt_skip, Re.first_seq, reRelease, Re.first_cap, Re.first_seq, hd]
  rw [Re.first_seq, Re.first_cap, hd]

theorem core_space_none {β : Type} {c : Char} (h : reSpace c = true) (t : Str) (k : Caps Grp → Str → Option β) :
    reCore.first (c :: t) k = none := by
  have h1 : ci 'v' c = false := by
    simp only [reSpace, Bool.or_eq_true, decide_eq_true_eq] at h
    rcases h with (((rfl | rfl) | rfl) | rfl) | rfl <;> decide
  have h2 : isDig c = false := by
    simp only [reSpace, Bool.or_eq_true, decide_eq_true_eq] at h
    rcases h with (((rfl | rfl) | rfl) | rfl) | rfl <;> decide
  simp only [reCore, Re.seqs]
  rw [Re.first_seq, optChr_skip (notStart_cons h1), rel_none h2]

theorem lead_space {β : Type} (a s : Str) (ha : ∀ c ∈ a, reSpace c = true) (k : Caps Grp → Str → Option β)
    (hk : ∀ cs c t, reSpace c = true → k cs (c :: t) = none) :
    (Re.star (.chr reSpace) : Re Grp).first (a ++ s) k = (Re.star (.chr reSpace) : Re Grp).first s k := by
  rw [Re.first_star_chr, Re.first_star_chr]
  induction a with
  | nil => rfl
  | cons c a ih =>
    have hc := ha c (by simp)
    rw [List.cons_append, spans, if_pos hc, List.findSome?_append, ih (fun d hd => ha d (by simp [hd]))]
    simp [hk [] c _ hc]

theorem space_end (t : Str) (x : Caps Grp) :
    (Re.star (.chr reSpace) : Re Grp).first t (fun c t' => if t'.isEmpty then some (x ++ c) else none) =
      if t.all reSpace then some x else none := by
  rw [Re.first_star_chr]
  induction t with
  | nil => simp [spans]
  | cons c t ih =>
    rw [spans]
    by_cases h : reSpace c = true
    · rw [if_pos h, List.findSome?_append, ih]
      simp [h]
    · rw [if_neg h]; simp [h]

theorem match_unfold (s : Str) : reVersion.matchFull s =
    (Re.star (.chr reSpace) : Re Grp).first s (fun c t => reCore.first t (fun c' t' =>
      if t'.all reSpace then some (c ++ c') else none)) := by
  rw [Re.matchFull_first, reVersion, Re.first_seq]
  congr 1
  funext c t
  rw [Re.first_seq]
  congr 1
  funext c' t'
  rw [← space_end t' (c ++ c')]
  congr 1
  funext c2 t2
  rw [List.append_assoc]

theorem core_accepts_space {c : Char} (h : reSpace c = true) : reCore.accepts c = false := by
  simp only [reSpace, Bool.or_eq_true, decide_eq_true_eq] at h
  rcases h with (((rfl | rfl) | rfl) | rfl) | rfl <;> decide

theorem core_append (s b : Str) (hb : ∀ c ∈ b, reSpace c = true) (cs : Caps Grp) :
    reCore.first (s ++ b) (fun c' t' => if t'.all reSpace then some (cs ++ c') else none) =
    reCore.first s (fun c' t' => if t'.all reSpace then some (cs ++ c') else none) := by
  unfold Re.first
  rw [Re.run_append reCore b s (fun c hc => core_accepts_space (hb c hc)), List.findSome?_map]
  congr 1
  funext p
  have : b.all reSpace = true := List.all_eq_true.2 hb
  simp only [Function.comp, List.all_append, this, Bool.and_true]

theorem match_blank (a s b : Str) (ha : ∀ c ∈ a, reSpace c = true) (hb : ∀ c ∈ b, reSpace c = true) :
    reVersion.matchFull (a ++ s ++ b) = reVersion.matchFull s := by
  have hk : ∀ (cs : Caps Grp) c t, reSpace c = true →
      reCore.first (c :: t) (fun c' t' => if t'.all reSpace then some (cs ++ c') else none) = none :=
    fun cs c t hc => core_space_none hc t _
  rw [match_unfold, match_unfold, List.append_assoc, lead_space a _ ha _ hk]
  -- strip leading blanks of s
  have key : ∀ s : Str, NotStart reSpace s →
      (Re.star (.chr reSpace) : Re Grp).first (s ++ b) (fun c t => reCore.first t (fun c' t' =>
        if t'.all reSpace then some (c ++ c') else none)) =
      (Re.star (.chr reSpace) : Re Grp).first s (fun c t => reCore.first t (fun c' t' =>
        if t'.all reSpace then some (c ++ c') else none)) := by
    intro s hs
    cases s with
    | nil =>
      rw [List.nil_append]
      have := lead_space b [] hb (fun c t => reCore.first t (fun c' t' =>
        if t'.all reSpace then some (c ++ c') else none)) hk
      rw [List.append_nil] at this
      exact this
    | cons c s =>
      rw [space_skip (s := (c :: s) ++ b) (notStart_cons (hs c s rfl)), space_skip hs]
      exact core_append _ b hb []
  have split : s = s.takeWhile reSpace ++ s.dropWhile reSpace := List.takeWhile_append_dropWhile.symm
  have h1 : ∀ c ∈ s.takeWhile reSpace, reSpace c = true := by
    intro c hc
    have := List.all_takeWhile (p := reSpace) (l := s)
    exact (List.all_eq_true.1 this) c hc
  have h2 : NotStart reSpace (s.dropWhile reSpace) := by
    intro c t e
    have := List.head?_dropWhile_not (p := reSpace) (l := s)
    rw [e] at this
    simpa using this
  rw [split, List.append_assoc, lead_space _ _ h1 _ hk, lead_space _ _ h1 _ hk, key _ h2]

theorem parse_v {s : Str} {d v : Char} {t : Str} (hs : s = d :: t) (hd : isDig d = true) (hv : v = 'v' ∨ v = 'V') :
    parseVersion (v :: s) = parseVersion s := by
  unfold parseVersion
  have : reVersion.matchFull (v :: s) = reVersion.matchFull s := by
    subst hs
    rw [match_unfold, match_unfold, space_skip (notStart_cons (by rcases hv with rfl | rfl <;> decide)),
      space_skip (notStart_cons (reSpace_dig hd))]
    simp only [reCore, Re.seqs]
    rw [Re.first_seq, Re.first_seq, optChr_skip (notStart_cons (ci_dig hd (by decide))), Re.first_opt,
      Re.first_chr_cons, if_pos (by rcases hv with rfl | rfl <;> decide)]
    have hz : ∀ (k : Caps Grp → Str → Option (Caps Grp)),
        (Re.seq reEpoch (.seq reRelease (.seq rePre (.seq rePost (.seq reDev reLocal))))).first (v :: d :: t) k = none := by
      intro k
      exact rel_none (by rcases hv with rfl | rfl <;> decide) _ _ k
    rw [hz]
    simp
  rw [this]

end Pep440
