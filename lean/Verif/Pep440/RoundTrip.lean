import Verif.Pep440.Parse
import Verif.Go.Strings
/-! Reading back printed versions, and the shape of everything the parser returns. -/
namespace Pep440
open Go Spec

theorem digits_no_dot {w : Str} (h : ∀ c ∈ w, isDig c = true) : ∀ c ∈ w, c ≠ '.' :=
  fun c hc => isDig_ne (h c hc) (by decide)

theorem split_release {n : Int} {ns : List Int} (hn : 0 ≤ n) (hns : ∀ m ∈ ns, 0 ≤ m) :
    split '.' (itoa n ++ writeRel ns) = (n :: ns).map itoa := by
  induction ns generalizing n with
  | nil =>
    rw [writeRel, List.append_nil, split_none (digits_no_dot (digits_itoa hn).2)]; rfl
  | cons m ns ih =>
    rw [writeRel, split_cons (digits_no_dot (digits_itoa hn).2),
      ih (hns m (by simp)) (fun k hk => hns k (by simp [hk]))]
    rfl

theorem parseRelease_itoa {ns : List Int} (h : ∀ n ∈ ns, Nat63 n) : parseRelease (ns.map itoa) = .ok ns := by
  induction ns with
  | nil => rfl
  | cons n ns ih =>
    have := h n (by simp)
    rw [List.map_cons, parseRelease, atoi_itoa this.1 this.2, ih (fun m hm => h m (by simp [hm]))]

theorem fieldsFunc_none {f : Char → Bool} {w : Str} (hne : w ≠ []) (h : ∀ c ∈ w, f c = false) :
    fieldsFunc f w = [w] := by
  induction w with
  | nil => exact absurd rfl hne
  | cons c w ih =>
    cases w with
    | nil => simp [fieldsFunc, h c (by simp)]
    | cons d w =>
      rw [fieldsFunc.eq_def]
      simp only [h c (by simp), Bool.false_eq_true, if_false, h d (by simp)]
      rw [ih (by simp) (fun e he => h e (by simp [he]))]

theorem fieldsFunc_cons {f : Char → Bool} {w s : Str} {d : Char} (hne : w ≠ []) (h : ∀ c ∈ w, f c = false)
    (hd : f d = true) : fieldsFunc f (w ++ d :: s) = w :: fieldsFunc f s := by
  induction w with
  | nil => exact absurd rfl hne
  | cons c w ih =>
    cases w with
    | nil =>
      rw [List.cons_append, List.nil_append, fieldsFunc.eq_def]
      simp only [h c (by simp), Bool.false_eq_true, if_false, hd, if_true]
      rw [fieldsFunc.eq_def]
      simp only [hd, if_true]
    | cons e w =>
      rw [List.cons_append, List.cons_append, fieldsFunc.eq_def]
      simp only [h c (by simp), Bool.false_eq_true, if_false, h e (by simp)]
      have := ih (by simp) (fun e he => h e (by simp [he]))
      rw [List.cons_append] at this
      rw [this]

/-- every field is a non-empty run of characters of the text not satisfying `f` -/
theorem mem_fieldsFunc {f : Char → Bool} {s p : Str} (hp : p ∈ fieldsFunc f s) :
    p ≠ [] ∧ ∀ c ∈ p, c ∈ s ∧ f c = false := by
  induction s generalizing p with
  | nil => simp [fieldsFunc] at hp
  | cons c s ih =>
    rw [fieldsFunc.eq_def] at hp
    simp only at hp
    split at hp
    · have := ih hp; exact ⟨this.1, fun d hd => ⟨by simp [(this.2 d hd).1], (this.2 d hd).2⟩⟩
    · rename_i hc
      have hc : f c = false := by simpa using hc
      have h1 : ∀ q, q = [c] → q ≠ [] ∧ ∀ d ∈ q, d ∈ c :: s ∧ f d = false := by
        rintro q rfl; exact ⟨by simp, by simp [hc]⟩
      cases s with
      | nil => simp at hp; exact h1 p hp
      | cons d s' =>
        simp only at hp
        split at hp
        · simp only [List.mem_cons] at hp
          rcases hp with hp | hp
          · exact h1 p hp
          · have := ih hp; exact ⟨this.1, fun d hd => ⟨by simp [(this.2 d hd).1], (this.2 d hd).2⟩⟩
        · split at hp
          · simp at hp; exact h1 p hp
          · rename_i q qs hq
            rw [hq] at ih
            simp only [List.mem_cons] at hp
            rcases hp with rfl | hp
            · have := ih (p := q) (by simp)
              refine ⟨by simp, fun e he => ?_⟩
              rcases List.mem_cons.1 he with rfl | he
              · exact ⟨by simp, hc⟩
              · exact ⟨List.mem_cons_of_mem _ (this.2 e he).1, (this.2 e he).2⟩
            · have := ih (p := p) (by simp [hp])
              exact ⟨this.1, fun e he => ⟨List.mem_cons_of_mem _ (this.2 e he).1, (this.2 e he).2⟩⟩

/-! ### local segments -/

/-- characters of a parsed alphanumeric local segment; U+017F survives because `[a-z]` under `(?i)` matches it and
`strings.ToLower` leaves it alone -/
def lowAlnum (c : Char) : Bool := isDig c || ('a' ≤ c && c ≤ 'z') || c = '\u017f'

/-- canonical local segment -/
def CanonSeg : Seg → Prop
  | .int n => 0 ≤ n ∧ n < 2 ^ 31
  | .str s => s ≠ [] ∧ (∀ c ∈ s, lowAlnum c = true) ∧ atoi s = none

theorem lowAlnum_ci {c : Char} (h : lowAlnum c = true) : ciAlnum c = true := by
  simp only [lowAlnum, ciAlnum, Bool.or_eq_true] at h ⊢
  rcases h with (h | h) | h
  · simp [h]
  · simp only [h, or_true, true_or]
  · simp [h]

theorem char_le {c d : Char} : c ≤ d ↔ c.toNat ≤ d.toNat := by
  rw [Char.le_def, UInt32.le_iff_toNat_le]; rfl

theorem lowAlnum_lower {c : Char} (h : lowAlnum c = true) : lowerC c = c := by
  have h1 : ¬ ('A' ≤ c ∧ c ≤ 'Z') := by
    intro h'
    simp only [char_le] at h'
    have e1 : 65 ≤ c.toNat := h'.1
    have e2 : c.toNat ≤ 90 := h'.2
    simp only [lowAlnum, Bool.or_eq_true, isDig_iff, Bool.and_eq_true, decide_eq_true_eq, char_le] at h
    rcases h with (h | h) | h
    · omega
    · have : 97 ≤ c.toNat := h.1
      omega
    · subst h; simp at e2
  have h2 : c ≠ '\u212a' := by rintro rfl; revert h; decide
  unfold lowerC
  simp only [Bool.and_eq_true, decide_eq_true_eq]
  rw [if_neg h1, if_neg h2]

theorem lower_ciAlnum {c : Char} (h : ciAlnum c = true) : lowAlnum (lowerC c) = true := by
  by_cases hu : 'A' ≤ c ∧ c ≤ 'Z'
  · have e1 : 65 ≤ c.toNat := char_le.1 hu.1
    have e2 : c.toNat ≤ 90 := char_le.1 hu.2
    have e3 : (Char.ofNat (c.toNat + 32)).toNat = c.toNat + 32 := by
      have : (c.toNat + 32).isValidChar := by left; omega
      rw [Char.ofNat, dif_pos this]
      show ((Char.ofNatAux _ _).val).toNat = _
      simp [Char.ofNatAux]; omega
    unfold lowerC
    simp only [Bool.and_eq_true, decide_eq_true_eq]
    rw [if_pos hu]
    simp only [lowAlnum, Bool.or_eq_true, Bool.and_eq_true, decide_eq_true_eq, char_le, e3]
    left; right
    exact ⟨by show 97 ≤ _; omega, by show _ ≤ 122; omega⟩
  · by_cases hk : c = '\u212a'
    · subst hk; decide
    · have : lowerC c = c := by
        unfold lowerC
        simp only [Bool.and_eq_true, decide_eq_true_eq]
        rw [if_neg hu, if_neg hk]
      rw [this]
      simp only [ciAlnum, Bool.or_eq_true, Bool.and_eq_true, decide_eq_true_eq] at h
      simp only [lowAlnum, Bool.or_eq_true, Bool.and_eq_true, decide_eq_true_eq]
      rcases h with (((h | h) | h) | h) | h
      · simp [h]
      · simp [h]
      · exact absurd h hu
      · simp [h]
      · exact absurd h hk

theorem isDig_lowAlnum {c : Char} (h : isDig c = true) : lowAlnum c = true := by simp [lowAlnum, h]

theorem ciAlnum_not_sep {c : Char} (h : ciAlnum c = true) : isSep c = false := by
  by_cases h1 : c = '-'
  · subst h1; revert h; decide
  by_cases h2 : c = '_'
  · subst h2; revert h; decide
  by_cases h3 : c = '.'
  · subst h3; revert h; decide
  simp [isSep, h1, h2, h3]

theorem canonSeg_low {g : Seg} (h : CanonSeg g) : g.string ≠ [] ∧ ∀ c ∈ g.string, lowAlnum c = true := by
  cases g with
  | int n =>
    have := digits_itoa h.1
    exact ⟨this.1, fun c hc => isDig_lowAlnum (this.2 c hc)⟩
  | str s => exact ⟨h.1, h.2.1⟩

theorem canonSeg_alnum {g : Seg} (h : CanonSeg g) : Alnum g.string :=
  ⟨(canonSeg_low h).1, fun c hc => lowAlnum_ci ((canonSeg_low h).2 c hc)⟩

theorem toLower_low {s : Str} (h : ∀ c ∈ s, lowAlnum c = true) : toLower s = s := by
  unfold toLower
  induction s with
  | nil => rfl
  | cons c s ih => rw [List.map_cons, lowAlnum_lower (h c (by simp)), ih (fun d hd => h d (by simp [hd]))]

theorem parseSeg_string {g : Seg} (h : CanonSeg g) : parseSeg (toLower g.string) = g := by
  rw [toLower_low (canonSeg_low h).2]
  cases g with
  | int n =>
    show parseSeg (itoa n) = _
    unfold parseSeg
    rw [atoi_itoa h.1 (by have := h.2; omega)]
    simp only
    rw [wrap32_eq (by have := h.1; omega) h.2]
  | str s =>
    show parseSeg s = _
    unfold parseSeg; rw [h.2.2]

theorem fields_loc {g : Seg} {ss : List Seg} (h : ∀ s ∈ g :: ss, Alnum s.string) :
    fieldsFunc isSep (g.string ++ writeLoc '.' ss) = (g :: ss).map Seg.string := by
  induction ss generalizing g with
  | nil =>
    have := h g (by simp)
    rw [writeLoc, List.append_nil, fieldsFunc_none this.1 (fun c hc => ciAlnum_not_sep (this.2 c hc))]; rfl
  | cons g' ss ih =>
    have := h g (by simp)
    rw [writeLoc, fieldsFunc_cons this.1 (fun c hc => ciAlnum_not_sep (this.2 c hc)) (by decide),
      ih (fun s hs => h s (by simp at hs ⊢; right; exact hs))]
    rfl

theorem map_parseSeg {ss : List Seg} (h : ∀ s ∈ ss, CanonSeg s) :
    (ss.map Seg.string).map (fun p => parseSeg (toLower p)) = ss := by
  induction ss with
  | nil => rfl
  | cons g ss ih =>
    rw [List.map_cons, List.map_cons, parseSeg_string (h g (by simp)), ih (fun s hs => h s (by simp [hs]))]

/-! ### reading back -/

/-- the canonical spelling of a pre-release letter -/
def canonSpelling (l : Str) : Str :=
  if preRank l = 0 then ['a'] else if preRank l = 1 then ['b'] else ['r', 'c']

theorem canonLetter_spelling {l : Str} (h : l ∈ spellings) : canonLetter preTable (toLower l) = some (canonSpelling l) := by
  rcases spell_cases h with rfl | rfl | rfl | rfl | rfl | rfl | rfl | rfl <;> decide

theorem spelling_ne_nil {l : Str} (h : l ∈ spellings) : l ≠ [] := by
  rcases spell_cases h with rfl | rfl | rfl | rfl | rfl | rfl | rfl | rfl <;> decide

theorem letterNumber {l l' : Str} {n : Int} {table : List (Str × List Str)} (hl : l ≠ []) (hn : Nat63 n)
    (hc : canonLetter table (toLower l) = some l') :
    parseLetterNumber l (itoa n) table = .ok (some (l', n)) := by
  have hd := (digits_itoa hn.1).1
  unfold parseLetterNumber
  rw [if_neg (by simp [hl])]
  simp only [hd, and_false, if_false, hc, ne_eq, not_false_eq_true, if_true, atoi_itoa hn.1 hn.2]

theorem letterNumber_none (table : List (Str × List Str)) : parseLetterNumber [] [] table = .ok none := rfl

/-- what `ParseVersion` reads from a printed version: only the spelling of the pre-release changes -/
def canonPre (v : Ver) : Ver := { v with pre := v.pre.map (fun p => (canonSpelling p.1, p.2)) }

/-- a version whose printed form can be read back -/
structure Readable (v : Ver) : Prop where
  epoch : Nat63 v.epoch
  release : v.release ≠ []
  releaseNN : ∀ n ∈ v.release, Nat63 n
  pre : ∀ l n, v.pre = some (l, n) → l ∈ spellings ∧ Nat63 n
  post : ∀ n, v.post = some n → Nat63 n
  dev : ∀ n, v.dev = some n → Nat63 n
  loc : ∀ g ∈ v.loc, CanonSeg g

theorem Readable.printable {v : Ver} (h : Readable v) : Printable v where
  release := h.release
  releaseNN n hn := (h.releaseNN n hn).1
  pre l n hp := ⟨(h.pre l n hp).1, (h.pre l n hp).2.1⟩
  post n hp := (h.post n hp).1
  dev n hp := (h.dev n hp).1
  loc g hg := canonSeg_alnum (h.loc g hg)

theorem parse_printed {v : Ver} (h : Readable v) :
    ∃ s, v.string = some s ∧ parseVersion s = .ok (canonPre v) := by
  obtain ⟨s, m, hs, hm, e⟩ := match_printed v h.printable
  refine ⟨s, hs, ?_⟩
  obtain ⟨n, ns, hrel⟩ := List.exists_cons_of_ne_nil h.release
  have hnn := h.releaseNN
  rw [hrel] at hnn e
  unfold parseVersion
  rw [hm]
  simp only
  subst e
  have gEpoch : group (capEpoch v.toPubVer ++ ((.release, itoa n ++ writeRel ns) ::
        (capPre v.toPubVer ++ (capPost v.toPubVer ++ (capDev v.toPubVer ++ capLoc v.loc))))) .epoch =
      if v.epoch > 0 then itoa v.epoch else [] := by
    unfold capEpoch capPre capPost capDev
    split
    · simp [group]
    · rcases v.pre with _ | ⟨l, k⟩ <;> rcases v.post with _ | q <;> rcases v.dev with _ | d <;>
        rcases v.loc with _ | ⟨g, ss⟩ <;> simp [group, capLoc]
  have gRel : group (capEpoch v.toPubVer ++ ((.release, itoa n ++ writeRel ns) ::
        (capPre v.toPubVer ++ (capPost v.toPubVer ++ (capDev v.toPubVer ++ capLoc v.loc))))) .release =
      itoa n ++ writeRel ns := by
    unfold capEpoch; split <;> simp [group]
  have skip : ∀ g : Grp, g ≠ .epoch → g ≠ .release →
      group (capEpoch v.toPubVer ++ ((.release, itoa n ++ writeRel ns) ::
        (capPre v.toPubVer ++ (capPost v.toPubVer ++ (capDev v.toPubVer ++ capLoc v.loc))))) g =
      group (capPre v.toPubVer ++ (capPost v.toPubVer ++ (capDev v.toPubVer ++ capLoc v.loc))) g := by
    intro g h1 h2
    unfold capEpoch; split <;> simp [group, h1.symm, h2.symm]
  have gPreL : group (capPre v.toPubVer ++ (capPost v.toPubVer ++ (capDev v.toPubVer ++ capLoc v.loc))) .preL =
      match v.pre with | some (l, _) => l | none => [] := by
    unfold capPre capPost capDev
    rcases v.pre with _ | ⟨l, k⟩ <;> rcases v.post with _ | q <;> rcases v.dev with _ | d <;>
        rcases v.loc with _ | ⟨g, ss⟩ <;> simp [group, capLoc]
  have gPreN : group (capPre v.toPubVer ++ (capPost v.toPubVer ++ (capDev v.toPubVer ++ capLoc v.loc))) .preN =
      match v.pre with | some (_, k) => itoa k | none => [] := by
    unfold capPre capPost capDev
    rcases v.pre with _ | ⟨l, k⟩ <;> rcases v.post with _ | q <;> rcases v.dev with _ | d <;>
        rcases v.loc with _ | ⟨g, ss⟩ <;> simp [group, capLoc]
  have gPostL : group (capPre v.toPubVer ++ (capPost v.toPubVer ++ (capDev v.toPubVer ++ capLoc v.loc))) .postL =
      match v.post with | some _ => ['p', 'o', 's', 't'] | none => [] := by
    unfold capPre capPost capDev
    rcases v.pre with _ | ⟨l, k⟩ <;> rcases v.post with _ | q <;> rcases v.dev with _ | d <;>
        rcases v.loc with _ | ⟨g, ss⟩ <;> simp [group, capLoc]
  have gPostN1 : group (capPre v.toPubVer ++ (capPost v.toPubVer ++ (capDev v.toPubVer ++ capLoc v.loc))) .postN1 =
      [] := by
    unfold capPre capPost capDev
    rcases v.pre with _ | ⟨l, k⟩ <;> rcases v.post with _ | q <;> rcases v.dev with _ | d <;>
        rcases v.loc with _ | ⟨g, ss⟩ <;> simp [group, capLoc]
  have gPostN2 : group (capPre v.toPubVer ++ (capPost v.toPubVer ++ (capDev v.toPubVer ++ capLoc v.loc))) .postN2 =
      match v.post with | some k => itoa k | none => [] := by
    unfold capPre capPost capDev
    rcases v.pre with _ | ⟨l, k⟩ <;> rcases v.post with _ | q <;> rcases v.dev with _ | d <;>
        rcases v.loc with _ | ⟨g, ss⟩ <;> simp [group, capLoc]
  have gDevL : group (capPre v.toPubVer ++ (capPost v.toPubVer ++ (capDev v.toPubVer ++ capLoc v.loc))) .devL =
      match v.dev with | some _ => ['d', 'e', 'v'] | none => [] := by
    unfold capPre capPost capDev
    rcases v.pre with _ | ⟨l, k⟩ <;> rcases v.post with _ | q <;> rcases v.dev with _ | d <;>
        rcases v.loc with _ | ⟨g, ss⟩ <;> simp [group, capLoc]
  have gDevN : group (capPre v.toPubVer ++ (capPost v.toPubVer ++ (capDev v.toPubVer ++ capLoc v.loc))) .devN =
      match v.dev with | some k => itoa k | none => [] := by
    unfold capPre capPost capDev
    rcases v.pre with _ | ⟨l, k⟩ <;> rcases v.post with _ | q <;> rcases v.dev with _ | d <;>
        rcases v.loc with _ | ⟨g, ss⟩ <;> simp [group, capLoc]
  have gLoc : group (capPre v.toPubVer ++ (capPost v.toPubVer ++ (capDev v.toPubVer ++ capLoc v.loc))) .loc =
      match v.loc with | g :: ss => g.string ++ writeLoc '.' ss | [] => [] := by
    unfold capPre capPost capDev
    rcases v.pre with _ | ⟨l, k⟩ <;> rcases v.post with _ | q <;> rcases v.dev with _ | d <;>
        rcases v.loc with _ | ⟨g, ss⟩ <;> simp [group, capLoc]
  unfold fromCaps
  simp only [skip .preL (by simp) (by simp), skip .preN (by simp) (by simp), skip .postL (by simp) (by simp),
    skip .postN1 (by simp) (by simp), skip .postN2 (by simp) (by simp), skip .devL (by simp) (by simp),
    skip .devN (by simp) (by simp), skip .loc (by simp) (by simp),
    gEpoch, gRel, gPreL, gPreN, gPostL, gPostN1, gPostN2, gDevL, gDevN, gLoc, List.nil_append]
  clear gEpoch gRel gPreL gPreN gPostL gPostN1 gPostN2 gDevL gDevN gLoc skip hm hs
  have pE : (if (if v.epoch > 0 then itoa v.epoch else []) ≠ [] then
      atoi (if v.epoch > 0 then itoa v.epoch else []) else some 0) = some v.epoch := by
    by_cases he : v.epoch > 0
    · rw [if_pos he, if_pos (digits_itoa (by omega)).1, atoi_itoa h.epoch.1 h.epoch.2]
    · have := h.epoch.1
      rw [if_neg he, if_neg (by simp)]; congr 1; omega
  have pR : parseRelease (split '.' (itoa n ++ writeRel ns)) = .ok v.release := by
    rw [split_release (hnn n (by simp)).1 (fun m hm => (hnn m (by simp [hm])).1), parseRelease_itoa hnn, hrel]
  have pP : parseLetterNumber (match v.pre with | some (l, _) => l | none => [])
      (match v.pre with | some (_, k) => itoa k | none => []) preTable =
      .ok (v.pre.map (fun p => (canonSpelling p.1, p.2))) := by
    rcases hp : v.pre with _ | ⟨l, k⟩
    · rfl
    · have := h.pre l k hp
      exact letterNumber (spelling_ne_nil this.1) this.2 (canonLetter_spelling this.1)
  have pQ : parseLetterNumber (match v.post with | some _ => ['p', 'o', 's', 't'] | none => [])
      (match v.post with | some k => itoa k | none => []) postTable =
      .ok (v.post.map (fun k => (['p', 'o', 's', 't'], k))) := by
    rcases hp : v.post with _ | k
    · rfl
    · exact letterNumber (l := ['p', 'o', 's', 't']) (by simp) (h.post k hp) (by decide)
  have pD : parseLetterNumber (match v.dev with | some _ => ['d', 'e', 'v'] | none => [])
      (match v.dev with | some k => itoa k | none => []) devTable =
      .ok (v.dev.map (fun k => (['d', 'e', 'v'], k))) := by
    rcases hp : v.dev with _ | k
    · rfl
    · exact letterNumber (l := ['d', 'e', 'v']) (by simp) (h.dev k hp) (by decide)
  have pL : (fieldsFunc isSep (match v.loc with | g :: ss => g.string ++ writeLoc '.' ss | [] => [])).map
      (fun p => parseSeg (toLower p)) = v.loc := by
    have := h.loc
    rcases hl : v.loc with _ | ⟨g, ss⟩
    · rfl
    · rw [hl] at this
      simp only
      rw [fields_loc (fun s hs => canonSeg_alnum (this s hs)), map_parseSeg this]
  rw [pE]; simp only
  rw [pR]; simp only
  rw [pP]; simp only
  rw [pQ]; simp only
  rw [pD]; simp only
  rw [pL]
  simp [canonPre, Option.map_map, Function.comp_def]

/-! ### the shape of parsed versions -/

/-- what every version returned by the parser looks like -/
structure Parsed (v : Ver) : Prop where
  epoch : Nat63 v.epoch
  release : v.release ≠ []
  releaseNN : ∀ n ∈ v.release, Nat63 n
  pre : ∀ l n, v.pre = some (l, n) → l ∈ [['a'], ['b'], ['r', 'c']] ∧ Nat63 n
  post : ∀ n, v.post = some n → Nat63 n
  dev : ∀ n, v.dev = some n → Nat63 n
  locInt : ∀ n, Seg.int n ∈ v.loc → -2 ^ 31 ≤ n ∧ n < 2 ^ 31
  locStr : ∀ s, Seg.str s ∈ v.loc → s ≠ [] ∧ (∀ c ∈ s, lowAlnum c = true) ∧ atoi s = none

/-- what the captures contain -/
def CapOK (g : Grp) (w : Str) : Prop :=
  match g with
  | .epoch | .preN | .postN1 | .postN2 | .devN => ∀ c ∈ w, isDig c = true
  | .release => ∀ c ∈ w, isDig c = true ∨ c = '.'
  | .loc => ∀ c ∈ w, ciAlnum c = true ∨ isSep c = true
  | _ => True

theorem cap_chars {γ : Type} {a : Re γ} {Q : Char → Prop} (h : ∀ c, a.accepts c = true → Q c) (s : Str) (p : Caps γ × Str)
    (hp : p ∈ a.run s) : ∀ c ∈ s.take (s.length - p.2.length), Q c := by
  obtain ⟨w, e, hw⟩ := a.run_split s p hp
  rw [take_split e]
  exact fun c hc => h c (hw c hc)

theorem capsSat_version : reVersion.capsSat CapOK := by
  have dig : ∀ c, (reDigits).accepts c = true → isDig c = true := by
    intro c; simp [reDigits, Re.plus, Re.accepts]
  have hdig : reDigits.capsSat CapOK := by simp [reDigits, Re.plus, Re.capsSat]
  have word : ∀ s : Str, (Re.lit ci s : Re Grp).capsSat CapOK := by
    intro s
    induction s with
    | nil => simp [Re.lit, Re.capsSat]
    | cons c s ih => cases s with
      | nil => simp [Re.lit, Re.capsSat]
      | cons d s => simp only [Re.lit, Re.capsSat]; exact ⟨trivial, ih⟩
  refine ⟨trivial, ⟨trivial, ?_, ?_, ?_, ?_, ?_, ?_⟩, trivial⟩
  · exact ⟨⟨hdig, fun s p hp => cap_chars dig s p hp⟩, trivial⟩
  · refine ⟨⟨hdig, trivial, hdig⟩, fun s p hp => cap_chars ?_ s p hp⟩
    intro c hc
    simp only [Re.accepts, Bool.or_eq_true, lit, decide_eq_true_eq] at hc
    rcases hc with h | h | h
    · exact Or.inl (dig c h)
    · exact Or.inr h
    · exact Or.inl (dig c h)
  · refine ⟨trivial, ⟨?_, fun _ _ _ => trivial⟩, trivial, hdig, fun s p hp => cap_chars dig s p hp⟩
    exact ⟨word _, word _, word _, word _, word _, word _, word _, word _⟩
  · refine ⟨⟨trivial, hdig, fun s p hp => cap_chars dig s p hp⟩, trivial, ⟨?_, fun _ _ _ => trivial⟩, trivial, hdig,
      fun s p hp => cap_chars dig s p hp⟩
    exact ⟨word _, word _, word _⟩
  · exact ⟨trivial, ⟨word _, fun _ _ _ => trivial⟩, trivial, hdig, fun s p hp => cap_chars dig s p hp⟩
  · refine ⟨trivial, ⟨⟨trivial, trivial⟩, trivial, ⟨trivial, trivial⟩⟩, fun s p hp => cap_chars ?_ s p hp⟩
    intro c hc
    simp only [Re.accepts, Re.plus, Bool.or_eq_true] at hc
    rcases hc with (h | h) | h | h | h <;> simp [h]

theorem match_caps {s : Str} {m : Caps Grp} (h : reVersion.matchFull s = some m) : ∀ x ∈ m, CapOK x.1 x.2 := by
  unfold Re.matchFull at h
  rw [Option.map_eq_some_iff] at h
  obtain ⟨p, hp, rfl⟩ := h
  exact Re.run_caps CapOK reVersion capsSat_version s p (List.mem_of_find?_eq_some hp)

theorem group_ok {m : Caps Grp} (h : ∀ x ∈ m, CapOK x.1 x.2) (g : Grp) : CapOK g (group m g) := by
  unfold group
  split
  · rename_i p hp
    have h1 := h p (List.mem_of_find?_eq_some hp)
    have h2 := List.find?_some hp
    simp at h2
    rw [h2] at h1; exact h1
  · cases g <;> simp [CapOK]

theorem atoi_digits {s : Str} {n : Int} (h : ∀ c ∈ s, isDig c = true) (hn : atoi s = some n) : Nat63 n := by
  rw [atoi_of_digits (List.all_eq_true.2 h)] at hn
  split at hn
  · split at hn
    · rename_i k _ hk
      injection hn with hn; subst hn
      unfold Nat63; omega
    · cases hn
  · cases hn

theorem parseRelease_ok {ss : List Str} {ns : List Int} (h : parseRelease ss = .ok ns)
    (hs : ∀ s ∈ ss, ∀ c ∈ s, isDig c = true) : ns.length = ss.length ∧ ∀ n ∈ ns, Nat63 n := by
  induction ss generalizing ns with
  | nil => simp [parseRelease] at h; subst h; simp
  | cons s ss ih =>
    rw [parseRelease] at h
    split at h
    · cases h
    · rename_i n hn
      split at h
      · cases h
      · rename_i ms hms
        injection h with h; subst h
        have := ih hms (fun t ht => hs t (by simp [ht]))
        refine ⟨by simp [this.1], ?_⟩
        intro m hm
        rcases List.mem_cons.1 hm with rfl | hm
        · exact atoi_digits (hs s (by simp)) hn
        · exact this.2 m hm

theorem letterNumber_ok {l w : Str} {table : List (Str × List Str)} {r : Option (Str × Int)}
    (h : parseLetterNumber l w table = .ok r) (hw : ∀ c ∈ w, isDig c = true) :
    ∀ l' n, r = some (l', n) → l' ∈ table.map (·.1) ∧ Nat63 n := by
  unfold parseLetterNumber at h
  split at h
  · injection h with h; subst h; intro _ _ e; cases e
  · simp only at h
    split at h
    · cases h
    · rename_i l'' hl
      have hmem : l'' ∈ table.map (·.1) := by
        unfold canonLetter at hl
        split at hl
        · rename_i ha
          injection hl with hl; subst hl
          rw [List.any_eq_true] at ha
          obtain ⟨p, hp, e⟩ := ha
          simp at e
          rw [← e]; exact List.mem_map_of_mem hp
        · rw [Option.map_eq_some_iff] at hl
          obtain ⟨p, hp, rfl⟩ := hl
          exact List.mem_map_of_mem (List.mem_of_find?_eq_some hp)
      have h0 : ∀ c ∈ (if toLower l ≠ [] ∧ w = [] then "0".toList else w), isDig c = true := by
        split
        · decide
        · exact hw
      generalize (if toLower l ≠ [] ∧ w = [] then "0".toList else w) = w' at h h0
      split at h
      · split at h
        · rename_i n hn
          injection h with h; subst h
          intro l' k e; cases e
          exact ⟨hmem, atoi_digits h0 hn⟩
        · cases h
      · injection h with h; subst h
        intro l' k e; cases e
        exact ⟨hmem, by unfold Nat63; omega⟩

theorem parsed_shape {s : Str} {v : Ver} (h : parseVersion s = .ok v) : Parsed v := by
  unfold parseVersion at h
  split at h
  · cases h
  rename_i m hm
  have hg := group_ok (match_caps hm)
  unfold fromCaps at h
  split at h
  · cases h
  rename_i epoch hE
  split at h
  · cases h
  rename_i release hR
  split at h
  · cases h
  rename_i pre hP
  split at h
  · cases h
  rename_i post hQ
  split at h
  · cases h
  rename_i dev hD
  injection h with h
  subst h
  have hrel := parseRelease_ok hR (fun p hp c hc => by
    have h1 := mem_split hp c hc
    have h2 := hg .release c h1.1
    exact h2.resolve_right h1.2)
  have hpre := letterNumber_ok hP (hg .preN)
  have hpost := letterNumber_ok hQ (fun c hc => (List.mem_append.1 hc).elim (hg .postN1 c) (hg .postN2 c))
  have hdev := letterNumber_ok hD (hg .devN)
  refine { epoch := ?_, release := ?_, releaseNN := hrel.2, pre := ?_, post := ?_, dev := ?_, locInt := ?_, locStr := ?_ }
  · simp only
    split at hE
    · exact atoi_digits (hg .epoch) hE
    · injection hE with hE; subst hE; unfold Nat63; omega
  · simp only
    intro e
    have := hrel.1
    rw [e] at this
    exact split_ne_nil _ _ (List.length_eq_zero_iff.1 this.symm)
  · exact hpre
  · intro n hn
    simp only [Option.map_eq_some_iff] at hn
    obtain ⟨⟨l, k⟩, rfl, rfl⟩ := hn
    exact (hpost l k rfl).2
  · intro n hn
    simp only [Option.map_eq_some_iff] at hn
    obtain ⟨⟨l, k⟩, rfl, rfl⟩ := hn
    exact (hdev l k rfl).2
  · intro n hn
    simp only [List.mem_map] at hn
    obtain ⟨p, _, e⟩ := hn
    unfold parseSeg at e
    split at e
    · injection e with e; subst e; exact wrap32_range _
    · cases e
  · intro t ht
    simp only [List.mem_map] at ht
    obtain ⟨p, hp, e⟩ := ht
    unfold parseSeg at e
    split at e
    · cases e
    · rename_i ha
      injection e with e; subst e
      have hf := mem_fieldsFunc hp
      refine ⟨?_, ?_, ha⟩
      · intro h0; exact hf.1 (List.map_eq_nil_iff.1 h0)
      · intro c hc
        unfold toLower at hc
        rw [List.mem_map] at hc
        obtain ⟨d, hd, rfl⟩ := hc
        have h1 := hf.2 d hd
        have h2 := hg .loc d h1.1
        rcases h2 with h2 | h2
        · exact lower_ciAlnum h2
        · rw [h1.2] at h2; cases h2

theorem canonSpelling_id {l : Str} (h : l ∈ [['a'], ['b'], ['r', 'c']]) : l ∈ spellings ∧ canonSpelling l = l := by
  simp only [List.mem_cons, List.not_mem_nil, or_false] at h
  rcases h with rfl | rfl | rfl <;> decide

theorem Parsed.readable {v : Ver} (h : Parsed v) (hi : ∀ n, Seg.int n ∈ v.loc → 0 ≤ n) : Readable v where
  epoch := h.epoch
  release := h.release
  releaseNN := h.releaseNN
  pre l n hp := ⟨(canonSpelling_id (h.pre l n hp).1).1, (h.pre l n hp).2⟩
  post := h.post
  dev := h.dev
  loc g hg := by
    cases g with
    | int n => exact ⟨hi n hg, (h.locInt n hg).2⟩
    | str s => exact h.locStr s hg

theorem Parsed.canonPre_id {v : Ver} (h : Parsed v) : canonPre v = v := by
  unfold canonPre
  have : v.pre.map (fun p => (canonSpelling p.1, p.2)) = v.pre := by
    rcases hp : v.pre with _ | ⟨l, n⟩
    · rfl
    · simp [(canonSpelling_id (h.pre l n hp).1).2]
  rw [this]

end Pep440
