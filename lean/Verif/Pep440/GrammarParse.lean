import Verif.Pep440.GrammarMatch
/-! Parsing a text given by its pieces. -/
namespace Pep440
open Go Spec

/-- the pieces of a version text, without blanks and `v` -/
structure Pieces where
  ep : Option Str
  r0 : Str
  rs : List Str
  pre : Option Wd
  post : Option (Str ⊕ Wd)
  dev : Option Wd
  loc : Option (Str × List (Char × Str))

/-- lower-case letters and digits -/
def LowA (w : Str) : Prop := w ≠ [] ∧ ∀ c ∈ w, c ∈ "abcdefghijklmnopqrstuvwxyz0123456789".toList

theorem lowA_ci : ∀ c ∈ "abcdefghijklmnopqrstuvwxyz0123456789".toList, ciAlnum c = true := by decide

namespace Pieces

def tEp (p : Pieces) : Str := match p.ep with | none => [] | some d => d ++ ['!']
def tPre (p : Pieces) : Str := match p.pre with | none => [] | some y => y.text
def tPost (p : Pieces) : Str := match p.post with | none => [] | some (.inl d) => '-' :: d | some (.inr y) => y.text
def tDev (p : Pieces) : Str := match p.dev with | none => [] | some y => y.text
def tLoc (p : Pieces) : Str := match p.loc with | none => [] | some (g, ws) => '+' :: (g ++ locTxt ws)

def rest2 (p : Pieces) : Str := p.tDev ++ p.tLoc
def rest1 (p : Pieces) : Str := p.tPost ++ p.rest2
def rest0 (p : Pieces) : Str := p.tPre ++ p.rest1
def relPart (p : Pieces) : Str := p.r0 ++ (relTxt p.rs ++ p.rest0)
def text (p : Pieces) : Str := p.tEp ++ p.relPart

structure Ok (p : Pieces) : Prop where
  ep : ∀ d, p.ep = some d → Digits d
  r0 : Digits p.r0
  rs : ∀ d ∈ p.rs, Digits d
  pre : ∀ y, p.pre = some y → y.Ok spellings
  post1 : ∀ d, p.post = some (.inl d) → Digits d
  post2 : ∀ y, p.post = some (.inr y) → y.Ok ["post".toList, "rev".toList, "r".toList]
  dev : ∀ y, p.dev = some y → y.Ok ["dev".toList]
  loc : ∀ g ws, p.loc = some (g, ws) → LowA g ∧ ∀ q ∈ ws, isSep q.1 = true ∧ LowA q.2

/-- separators and `-N` are taken by the part before them -/
structure NF (p : Pieces) : Prop where
  pre : ∀ y, p.pre = some y → y.s2 = [] → y.d = [] → NotStart isSep p.rest1
  post : ∀ y, p.post = some (.inr y) → y.s2 = [] → y.d = [] → NotStart isSep p.rest2

def cEp (p : Pieces) : Caps Grp := match p.ep with | none => [] | some d => [(.epoch, d)]
def cPre (p : Pieces) : Caps Grp := match p.pre with | none => [] | some y => y.caps .preL .preN
def cPost (p : Pieces) : Caps Grp :=
  match p.post with | none => [] | some (.inl d) => [(.postN1, d)] | some (.inr y) => y.caps .postL .postN2
def cDev (p : Pieces) : Caps Grp := match p.dev with | none => [] | some y => y.caps .devL .devN
def cLoc (p : Pieces) : Caps Grp := match p.loc with | none => [] | some (g, ws) => [(.loc, g ++ locTxt ws)]

def caps (p : Pieces) : Caps Grp :=
  p.cEp ++ ((.release, p.r0 ++ relTxt p.rs) :: (p.cPre ++ (p.cPost ++ (p.cDev ++ p.cLoc))))

theorem tLoc_cases (p : Pieces) : p.tLoc = [] ∨ ∃ t, p.tLoc = '+' :: t := by
  unfold tLoc
  split
  · exact Or.inl rfl
  · exact Or.inr ⟨_, rfl⟩

theorem rest2_ok {p : Pieces} (h : p.Ok) : Rest2 p.rest2 := by
  unfold rest2 tDev
  split
  · rcases p.tLoc_cases with e | ⟨t, e⟩
    · rw [e]; exact .nil
    · rw [e]; exact .loc t
  · rename_i y hy
    have ok := h.dev y hy
    have hw : y.w = ['d', 'e', 'v'] := by simpa using ok.w
    have : y.text ++ p.tLoc = y.s1 ++ ('d' :: 'e' :: 'v' :: (y.s2 ++ y.d ++ p.tLoc)) := by simp [Wd.text, hw]
    rw [this]
    exact .dev _ _ ok.s1

theorem ciC_sep {l c : Char} (hl : l ∈ ['c', 'e']) (hc : isSep c = true) : ci l c = false := by
  simp only [isSep, Bool.or_eq_true, decide_eq_true_eq] at hc
  simp only [List.mem_cons, List.not_mem_nil, or_false] at hl
  rcases hl with rfl | rfl <;> rcases hc with (rfl | rfl) | rfl <;> decide

theorem rest1_ok {p : Pieces} (h : p.Ok) : Rest p.rest1 := by
  unfold rest1 tPost
  split
  · exact (rest2_ok h).rest
  · rename_i d hd
    have hd := h.post1 d hd
    obtain ⟨c, w, rfl⟩ := List.exists_cons_of_ne_nil hd.1
    exact .dash _ _ (hd.2 c (by simp))
  · rename_i y hy
    have ok := h.post2 y hy
    have hw : y.w = ['p', 'o', 's', 't'] ∨ y.w = ['r', 'e', 'v'] ∨ y.w = ['r'] := by simpa using ok.w
    rcases hw with hw | hw | hw
    · have : y.text ++ p.rest2 = y.s1 ++ ('p' :: 'o' :: 's' :: 't' :: (y.s2 ++ y.d ++ p.rest2)) := by simp [Wd.text, hw]
      rw [this]; exact .post _ _ ok.s1
    · have : y.text ++ p.rest2 = y.s1 ++ ('r' :: 'e' :: 'v' :: (y.s2 ++ y.d ++ p.rest2)) := by simp [Wd.text, hw]
      rw [this]; exact .rev _ _ ok.s1
    · have : y.text ++ p.rest2 = y.s1 ++ ('r' :: (y.s2 ++ (y.d ++ p.rest2))) := by simp [Wd.text, hw]
      rw [this]
      refine .r _ _ ok.s1 ?_
      exact notStart_num ok.s2 ok.d (fun c hc => ciC_sep (by simp) hc) (fun c hc => ci_dig hc (by decide))
        ((rest2_ok h).rest.notStart (by decide))

theorem rest0_ok {p : Pieces} (h : p.Ok) : RelStop p.rest0 ∧ NotStart (lit '!') p.rest0 := by
  unfold rest0 tPre
  split
  · exact ⟨(rest1_ok h).relStop, (rest1_ok h).notStart (by decide)⟩
  · rename_i y hy
    have ok := h.pre y hy
    obtain ⟨s1, l, s2, d⟩ := y
    have hs : Sep s1 := ok.s1
    rcases spell_cases ok.w with e | e | e | e | e | e | e | e <;>
    · dsimp only at e
      subst e
      rcases hs with rfl | rfl | rfl | rfl <;>
      · refine ⟨⟨notStart_cons (by decide), ?_⟩, notStart_cons (by decide)⟩
        intro d t e
        simp [Wd.text] at e
        try (rw [← e.1]; decide)

theorem match_pieces {p : Pieces} (h : p.Ok) (hnf : p.NF) : reVersion.matchFull p.text = some p.caps := by
  have sh2 := rest2_ok h
  have sh1 := rest1_ok h
  have sh0 := rest0_ok h
  have hR : ∀ q : Char → Bool, (∀ c, isDig c = true → q c = false) → NotStart q p.relPart := fun q hq => by
    unfold relPart; exact digits_notStart h.r0 hq
  have hE : ∀ q : Char → Bool, (∀ c, isDig c = true → q c = false) → NotStart q p.text := by
    intro q hq
    unfold text tEp
    split
    · simpa using hR q hq
    · rename_i d hd
      rw [List.append_assoc]
      exact digits_notStart (h.ep d hd) hq
  rw [Re.matchFull_first]
  show reVersion.first p.text kfin = _
  unfold reVersion reCore
  simp only [Re.seqs]
  rw [Re.first_seq, space_skip (hE _ (fun c hc => reSpace_dig hc)), Re.first_seq, Re.first_seq,
    optChr_skip (hE _ (fun c hc => ci_dig hc (by decide))), Re.first_seq]
  simp only [List.nil_append]
  -- epoch
  suffices hs : (Re.seq reRelease (.seq rePre (.seq rePost (.seq reDev reLocal)))).first p.relPart
      (fun c' t' => (Re.star (.chr reSpace)).first t' (fun c2 t2 => kfin ((p.cEp ++ c') ++ c2) t2)) =
      some p.caps by
    unfold text tEp
    unfold cEp at hs
    split
    · rename_i he
      rw [he] at hs
      rw [List.nil_append]
      unfold relPart at hs ⊢
      rw [epoch_none h.r0 (relTxt_notDig sh0.1)]
      · exact hs
      · rcases hrs : p.rs with _ | ⟨m, ms⟩
        · exact sh0.2
        · exact notStart_cons (by decide)
    · rename_i d he
      rw [he] at hs
      rw [List.append_assoc]
      exact epoch_some (h.ep d he) hs
  -- release
  rw [Re.first_seq]
  unfold relPart
  apply release_word h.r0 h.rs sh0.1
  rw [Re.first_seq]
  -- pre-release
  suffices hs : (Re.seq rePost (.seq reDev reLocal)).first p.rest1
      (fun c' t' => (Re.star (.chr reSpace)).first t' (fun c2 t2 => kfin (p.cEp ++
        ((.release, p.r0 ++ relTxt p.rs) :: (p.cPre ++ c')) ++ c2) t2)) = some p.caps by
    unfold rest0 tPre
    unfold cPre at hs
    split
    · rename_i hp
      rw [hp] at hs
      rw [List.nil_append, pre_skip sh1]
      exact hs
    · rename_i y hp
      rw [hp] at hs
      apply pre_word (h.pre y hp) (hnf.pre y hp) (sh1.notStart (by decide)) hs
      intro c hc cs t
      exact tail_letter cs c hc t (fun z => p.cEp ++ ((.release, p.r0 ++ relTxt p.rs) :: z))
  rw [Re.first_seq]
  -- post-release
  suffices hs : (Re.seq reDev reLocal).first p.rest2
      (fun c' t' => (Re.star (.chr reSpace)).first t' (fun c2 t2 => kfin (p.cEp ++
        ((.release, p.r0 ++ relTxt p.rs) :: (p.cPre ++ (p.cPost ++ c'))) ++ c2) t2)) = some p.caps by
    unfold rest1 tPost
    unfold cPost at hs
    split
    · rename_i hp
      rw [hp] at hs
      rw [List.nil_append, post_skip sh2]
      exact hs
    · rename_i d hp
      rw [hp] at hs
      exact post_dash (h.post1 d hp) (sh2.rest.notStart (by decide)) hs
    · rename_i y hp
      rw [hp] at hs
      exact post_word (h.post2 y hp) (hnf.post y hp) (sh2.rest.notStart (by decide)) (sh2.rest.notStart (by decide)) hs
  rw [Re.first_seq]
  -- dev
  suffices hs : reLocal.first p.tLoc
      (fun c' t' => (Re.star (.chr reSpace)).first t' (fun c2 t2 => kfin (p.cEp ++
        ((.release, p.r0 ++ relTxt p.rs) :: (p.cPre ++ (p.cPost ++ (p.cDev ++ c')))) ++ c2) t2)) = some p.caps by
    unfold rest2 tDev
    unfold cDev at hs
    split
    · rename_i hp
      rw [hp] at hs
      rw [List.nil_append, dev_skip p.tLoc_cases]
      exact hs
    · rename_i y hp
      rw [hp] at hs
      have hl : ∀ q : Char → Bool, q '+' = false → NotStart q p.tLoc := by
        intro q hq
        rcases p.tLoc_cases with e | ⟨t, e⟩ <;> rw [e]
        · exact notStart_nil _
        · exact notStart_cons hq
      exact dev_word (h.dev y hp) (fun _ _ => hl _ (by decide)) (hl _ (by decide)) hs
  -- local
  unfold tLoc
  split
  · rename_i hl
    apply loc_none
    rw [space_skip (notStart_nil _)]
    simp [kfin, caps, cLoc, hl]
  · rename_i g ws hl
    have ok := h.loc g ws hl
    have al : ∀ {w : Str}, LowA w → Alnum w := by
      intro w hw
      refine ⟨hw.1, fun c hc => ?_⟩
      exact lowA_ci c (hw.2 c hc)
    apply loc_word (al ok.1) (fun q hq => ⟨(ok.2 q hq).1, al (ok.2 q hq).2⟩)
    rw [space_skip (notStart_nil _)]
    simp [kfin, caps, cLoc, hl]

end Pieces

/-! ### the captures read -/

theorem group_skip {a b : Caps Grp} {g : Grp} (h : ∀ x ∈ a, x.1 ≠ g) : group (a ++ b) g = group b g := by
  unfold group
  rw [List.find?_append, List.find?_eq_none.2 (by simpa using h)]
  rfl

theorem group_only {a b : Caps Grp} {g : Grp} (h : ∀ x ∈ b, x.1 ≠ g) : group (a ++ b) g = group a g := by
  unfold group
  rw [List.find?_append, List.find?_eq_none.2 (show ∀ x ∈ b, ¬ decide (x.1 = g) = true by simpa using h), Option.or_none]

theorem Wd.group_l {x : Wd} {gl gn : Grp} : group (x.caps gl gn) gl = x.w := by simp [group, Wd.caps]

theorem Wd.group_n {x : Wd} {gl gn : Grp} (h : gl ≠ gn) : group (x.caps gl gn) gn = x.d := by
  unfold Wd.caps
  by_cases hd : x.d = []
  · simp [group, h, hd]
  · simp [group, h, hd]

theorem Wd.caps_keys {x : Wd} {gl gn : Grp} : ∀ y ∈ x.caps gl gn, y.1 = gl ∨ y.1 = gn := by
  intro y hy
  unfold Wd.caps at hy
  rw [List.mem_cons] at hy
  rcases hy with rfl | hy
  · exact Or.inl rfl
  · split at hy
    · cases hy
    · simp at hy; subst hy; exact Or.inr rfl

/-- the number written, zero if nothing is -/
def numOf (d : Str) : Int := (digitsVal d : Int)

theorem atoi_num {d : Str} (h : Digits d) : atoi d = if numOf d < 2 ^ 63 then some (numOf d) else none := by
  rw [atoi_of_digits (List.all_eq_true.2 h.2), atoiU, if_pos ⟨h.1, List.all_eq_true.2 h.2⟩]
  have e : numOf d = (digitsVal d : Int) := rfl
  by_cases hh : digitsVal d < 2 ^ 63
  · rw [if_pos (show numOf d < 2 ^ 63 by omega)]
    simp only [hh, if_true, e]
  · rw [if_neg (show ¬ numOf d < 2 ^ 63 by omega)]
    simp only [hh, if_false]

theorem letterNumber_word {w d l : Str} {table : List (Str × List Str)} (hw : w ≠ []) (hd : d = [] ∨ Digits d)
    (hc : canonLetter table (toLower w) = some l) :
    parseLetterNumber w d table = if numOf d < 2 ^ 63 then .ok (some (l, numOf d)) else .error () := by
  have hl : toLower w ≠ [] := by simpa [toLower] using hw
  unfold parseLetterNumber
  rw [if_neg (by simp [hw])]
  rcases hd with rfl | hd
  · simp only [hc, hl, ne_eq, not_false_eq_true, and_self, if_true]
    rfl
  · simp only [hd.1, and_false, if_false, hc, ne_eq, not_false_eq_true, if_true, atoi_num hd]
    by_cases h : numOf d < 2 ^ 63
    · simp only [h, if_true]
    · simp only [h, if_false]

theorem letterNumber_dash {d : Str} (hd : Digits d) :
    parseLetterNumber [] d postTable = if numOf d < 2 ^ 63 then .ok (some ("post".toList, numOf d)) else .error () := by
  have hc : canonLetter postTable (toLower []) = some "post".toList := by decide
  unfold parseLetterNumber
  rw [if_neg (by simp [hd.1])]
  simp only [hd.1, and_false, if_false, hc, ne_eq, not_false_eq_true, if_true, atoi_num hd]
  by_cases h : numOf d < 2 ^ 63
  · simp only [h, if_true]
  · simp only [h, if_false]

theorem parseRelease_num {ws : List Str} (h : ∀ w ∈ ws, Digits w) :
    parseRelease ws = if ∀ w ∈ ws, numOf w < 2 ^ 63 then .ok (ws.map numOf) else .error () := by
  induction ws with
  | nil => simp [parseRelease]
  | cons w ws ih =>
    have ih := ih (fun x hx => h x (by simp [hx]))
    rw [parseRelease, atoi_num (h w (by simp)), ih]
    by_cases h1 : numOf w < 2 ^ 63
    · by_cases h2 : ∀ x ∈ ws, numOf x < 2 ^ 63
      · rw [if_pos h1, if_pos h2, if_pos (by simpa using ⟨h1, h2⟩)]; rfl
      · rw [if_pos h1, if_neg h2, if_neg (by intro h'; exact h2 (fun x hx => h' x (by simp [hx])))]
    · rw [if_neg h1, if_neg (show ¬ ∀ x ∈ w :: ws, numOf x < 2 ^ 63 from fun h' => h1 (h' w (by simp)))]

theorem split_rel {n : Str} {ws : List Str} (hn : Digits n) (hns : ∀ m ∈ ws, Digits m) :
    split '.' (n ++ relTxt ws) = n :: ws := by
  induction ws generalizing n with
  | nil => rw [relTxt, List.flatMap_nil, List.append_nil, split_none (digits_no_dot hn.2)]
  | cons m ns ih =>
    have e : n ++ relTxt (m :: ns) = n ++ '.' :: (m ++ relTxt ns) := by simp [relTxt]
    rw [e, split_cons (digits_no_dot hn.2), ih (hns m (by simp)) (fun k hk => hns k (by simp [hk]))]

theorem fields_loc' {g : Str} {ws : List (Char × Str)} (hg : Alnum g) (h : ∀ q ∈ ws, isSep q.1 = true ∧ Alnum q.2) :
    fieldsFunc isSep (g ++ locTxt ws) = g :: ws.map (·.2) := by
  induction ws generalizing g with
  | nil => 
    rw [locTxt, List.flatMap_nil, List.append_nil]
    exact fieldsFunc_none hg.1 (fun c hc => ciAlnum_not_sep (hg.2 c hc))
  | cons m ns ih =>
    have e : g ++ locTxt (m :: ns) = g ++ m.1 :: (m.2 ++ locTxt ns) := by simp [locTxt]
    rw [e, fieldsFunc_cons hg.1 (fun c hc => ciAlnum_not_sep (hg.2 c hc)) (h m (by simp)).1,
      ih (h m (by simp)).2 (fun k hk => h k (by simp [hk]))]
    rfl

/-- what a local segment says -/
def segOf (w : Str) : Seg := if w.all isDig then .int (numOf w) else .str w

theorem lowA_low : ∀ c ∈ "abcdefghijklmnopqrstuvwxyz0123456789".toList, lowAlnum c = true ∧ c ≠ '-' ∧ c ≠ '+' := by
  decide

theorem parseSeg_low {w : Str} (h : LowA w) (hs : w.all isDig = true → numOf w < 2 ^ 31) :
    parseSeg (toLower w) = segOf w := by
  rw [toLower_low (fun c hc => (lowA_low c (h.2 c hc)).1)]
  unfold parseSeg segOf
  by_cases hd : w.all isDig = true
  · have hd' : Digits w := ⟨h.1, List.all_eq_true.1 hd⟩
    have := hs hd
    have n0 : 0 ≤ numOf w := by unfold numOf; omega
    rw [atoi_num hd', if_pos (by omega), if_pos hd]
    simp only
    rw [wrap32_eq (by omega) this]
  · rw [if_neg hd]
    have hU : atoiU w = none := by
      unfold atoiU
      rw [if_neg]
      rintro ⟨_, h'⟩
      exact hd h'
    have ha : atoi w = none := by
      unfold atoi
      split
      · exact absurd rfl (lowA_low _ (h.2 _ List.mem_cons_self)).2.1
      · exact absurd rfl (lowA_low _ (h.2 _ List.mem_cons_self)).2.2
      · rw [hU]
    rw [ha]

namespace Pieces

/-- what the pieces say -/
def val (p : Pieces) : Ver where
  epoch := match p.ep with | none => 0 | some d => numOf d
  release := (p.r0 :: p.rs).map numOf
  pre := p.pre.map (fun y => (canonSpelling y.w, numOf y.d))
  post := p.post.map (fun z => match z with | .inl d => numOf d | .inr y => numOf y.d)
  dev := p.dev.map (fun y => numOf y.d)
  loc := match p.loc with | none => [] | some (g, ws) => (g :: ws.map (·.2)).map segOf

/-- the numbers of the local label are below 2^31 -/
def Small (p : Pieces) : Prop :=
  ∀ g ws, p.loc = some (g, ws) → ∀ w ∈ g :: ws.map (·.2), w.all isDig = true → numOf w < 2 ^ 31

theorem cEp_keys (p : Pieces) : ∀ x ∈ p.cEp, x.1 = .epoch := by unfold cEp; split <;> simp
theorem cPre_keys (p : Pieces) : ∀ x ∈ p.cPre, x.1 = .preL ∨ x.1 = .preN := by
  unfold cPre; split
  · simp
  · exact Wd.caps_keys
theorem cPost_keys (p : Pieces) : ∀ x ∈ p.cPost, x.1 = .postL ∨ x.1 = .postN1 ∨ x.1 = .postN2 := by
  unfold cPost; split
  · simp
  · simp
  · intro x hx; rcases Wd.caps_keys x hx with h | h <;> simp [h]
theorem cDev_keys (p : Pieces) : ∀ x ∈ p.cDev, x.1 = .devL ∨ x.1 = .devN := by
  unfold cDev; split
  · simp
  · exact Wd.caps_keys
theorem cLoc_keys (p : Pieces) : ∀ x ∈ p.cLoc, x.1 = .loc := by unfold cLoc; split <;> simp

theorem g_epoch (p : Pieces) : group p.caps .epoch = group p.cEp .epoch := by
  unfold caps
  apply group_only
  intro x hx
  simp only [List.mem_cons, List.mem_append] at hx
  rcases hx with rfl | hx | hx | hx | hx
  · simp
  · rcases p.cPre_keys x hx with h | h <;> simp [h]
  · rcases p.cPost_keys x hx with h | h | h <;> simp [h]
  · rcases p.cDev_keys x hx with h | h <;> simp [h]
  · simp [p.cLoc_keys x hx]

theorem g_release (p : Pieces) : group p.caps .release = p.r0 ++ relTxt p.rs := by
  unfold caps
  rw [group_skip (fun x hx => by simp [p.cEp_keys x hx])]
  simp [group]

theorem g_tail (p : Pieces) {g : Grp} (h1 : g ≠ .epoch) (h2 : g ≠ .release) :
    group p.caps g = group (p.cPre ++ (p.cPost ++ (p.cDev ++ p.cLoc))) g := by
  unfold caps
  rw [group_skip (fun x hx => by rw [p.cEp_keys x hx]; exact h1.symm)]
  simp [group, h2.symm]

theorem g_pre (p : Pieces) {g : Grp} (h : g = .preL ∨ g = .preN) : group p.caps g = group p.cPre g := by
  rw [p.g_tail (by rcases h with rfl | rfl <;> simp) (by rcases h with rfl | rfl <;> simp)]
  apply group_only
  intro x hx
  simp only [List.mem_append] at hx
  rcases hx with hx | hx | hx
  · rcases p.cPost_keys x hx with h' | h' | h' <;> rcases h with rfl | rfl <;> simp [h']
  · rcases p.cDev_keys x hx with h' | h' <;> rcases h with rfl | rfl <;> simp [h']
  · rcases h with rfl | rfl <;> simp [p.cLoc_keys x hx]

theorem g_post (p : Pieces) {g : Grp} (h : g = .postL ∨ g = .postN1 ∨ g = .postN2) :
    group p.caps g = group p.cPost g := by
  rw [p.g_tail (by rcases h with rfl | rfl | rfl <;> simp) (by rcases h with rfl | rfl | rfl <;> simp), group_skip]
  · apply group_only
    intro x hx
    simp only [List.mem_append] at hx
    rcases hx with hx | hx
    · rcases p.cDev_keys x hx with h' | h' <;> rcases h with rfl | rfl | rfl <;> simp [h']
    · rcases h with rfl | rfl | rfl <;> simp [p.cLoc_keys x hx]
  · intro x hx
    rcases p.cPre_keys x hx with h' | h' <;> rcases h with rfl | rfl | rfl <;> simp [h']

theorem g_dev (p : Pieces) {g : Grp} (h : g = .devL ∨ g = .devN) : group p.caps g = group p.cDev g := by
  rw [p.g_tail (by rcases h with rfl | rfl <;> simp) (by rcases h with rfl | rfl <;> simp), group_skip, group_skip]
  · apply group_only
    intro x hx
    rcases h with rfl | rfl <;> simp [p.cLoc_keys x hx]
  · intro x hx
    rcases p.cPost_keys x hx with h' | h' | h' <;> rcases h with rfl | rfl <;> simp [h']
  · intro x hx
    rcases p.cPre_keys x hx with h' | h' <;> rcases h with rfl | rfl <;> simp [h']

theorem g_loc (p : Pieces) : group p.caps .loc = group p.cLoc .loc := by
  rw [p.g_tail (by simp) (by simp), group_skip, group_skip, group_skip]
  · intro x hx
    rcases p.cDev_keys x hx with h' | h' <;> simp [h']
  · intro x hx
    rcases p.cPost_keys x hx with h' | h' | h' <;> simp [h']
  · intro x hx
    rcases p.cPre_keys x hx with h' | h' <;> simp [h']

theorem r_epoch {p : Pieces} (h : p.Ok) :
    (if group p.caps .epoch ≠ [] then atoi (group p.caps .epoch) else some 0) =
    if p.val.epoch < 2 ^ 63 then some p.val.epoch else none := by
  rw [g_epoch]
  rcases hd : p.ep with _ | d
  · have v : p.val.epoch = 0 := by simp [val, hd]
    have c : p.cEp = [] := by simp [cEp, hd]
    simp [v, c, group]
  · have v : p.val.epoch = numOf d := by simp [val, hd]
    have c : group p.cEp .epoch = d := by simp [cEp, hd, group]
    have := h.ep d hd
    rw [c, v, if_pos this.1, atoi_num this]

theorem r_release {p : Pieces} (h : p.Ok) :
    parseRelease (split '.' (group p.caps .release)) =
    if ∀ n ∈ p.val.release, n < 2 ^ 63 then .ok p.val.release else .error () := by
  have v : p.val.release = (p.r0 :: p.rs).map numOf := rfl
  rw [g_release, split_rel h.r0 h.rs, parseRelease_num (by simpa using ⟨h.r0, h.rs⟩), v]
  simp only [List.forall_mem_map]

open Classical in
theorem r_pre {p : Pieces} (h : p.Ok) :
    parseLetterNumber (group p.caps .preL) (group p.caps .preN) preTable =
    if ∀ l n, p.val.pre = some (l, n) → n < 2 ^ 63 then .ok p.val.pre else .error () := by
  rw [g_pre p (Or.inl rfl), g_pre p (Or.inr rfl)]
  rcases hp : p.pre with _ | y
  · have v : p.val.pre = none := by simp [val, hp]
    have c : p.cPre = [] := by simp [cPre, hp]
    simp [v, c, group, parseLetterNumber]
  · have ok := h.pre y hp
    have v : p.val.pre = some (canonSpelling y.w, numOf y.d) := by simp [val, hp]
    have c : p.cPre = y.caps .preL .preN := by simp [cPre, hp]
    rw [c, Wd.group_l, Wd.group_n (show Grp.preL ≠ .preN by simp),
      letterNumber_word (spelling_ne_nil ok.w) ok.d (canonLetter_spelling ok.w)]
    by_cases hh : numOf y.d < 2 ^ 63
    · rw [if_pos hh, if_pos (by intro l n hn; rw [v] at hn; cases hn; exact hh), v]
    · rw [if_neg hh, if_neg (fun h' => hh (h' _ _ v))]

open Classical in
theorem r_post {p : Pieces} (h : p.Ok) :
    (parseLetterNumber (group p.caps .postL) (group p.caps .postN1 ++ group p.caps .postN2) postTable).map
      (fun o => o.map (·.2)) =
    if ∀ n, p.val.post = some n → n < 2 ^ 63 then .ok p.val.post else .error () := by
  rw [g_post p (Or.inl rfl), g_post p (Or.inr (Or.inl rfl)), g_post p (Or.inr (Or.inr rfl))]
  rcases hp : p.post with _ | (d | y)
  · have v : p.val.post = none := by simp [val, hp]
    have c : p.cPost = [] := by simp [cPost, hp]
    simp [v, c, group, parseLetterNumber, Except.map]
  · have ok := h.post1 d hp
    have v : p.val.post = some (numOf d) := by simp [val, hp]
    have c : p.cPost = [(Grp.postN1, d)] := by simp [cPost, hp]
    have e : parseLetterNumber (group [(Grp.postN1, d)] .postL)
        (group [(Grp.postN1, d)] .postN1 ++ group [(Grp.postN1, d)] .postN2) postTable =
        parseLetterNumber [] d postTable := by simp [group]
    rw [c, e, letterNumber_dash ok]
    by_cases hh : numOf d < 2 ^ 63
    · rw [if_pos hh, if_pos (by intro n hn; rw [v] at hn; cases hn; exact hh), v]; rfl
    · rw [if_neg hh, if_neg (fun h' => hh (h' _ v))]; rfl
  · have ok := h.post2 y hp
    have v : p.val.post = some (numOf y.d) := by simp [val, hp]
    have c : p.cPost = y.caps .postL .postN2 := by simp [cPost, hp]
    have hw : y.w = ['p', 'o', 's', 't'] ∨ y.w = ['r', 'e', 'v'] ∨ y.w = ['r'] := by simpa using ok.w
    have hN1 : group (y.caps .postL .postN2) .postN1 = [] := by
      have : ∀ x ∈ y.caps .postL .postN2, x.1 ≠ .postN1 := by
        intro x hx; rcases Wd.caps_keys x hx with h | h <;> simp [h]
      have := group_skip (b := []) this
      rw [List.append_nil] at this
      rw [this]; rfl
    rw [c, Wd.group_l, Wd.group_n (show Grp.postL ≠ .postN2 by simp), hN1, List.nil_append,
      letterNumber_word (l := "post".toList) (by rcases hw with h | h | h <;> simp [h]) ok.d
      (by rcases hw with h | h | h <;> rw [h] <;> decide)]
    by_cases hh : numOf y.d < 2 ^ 63
    · rw [if_pos hh, if_pos (by intro n hn; rw [v] at hn; cases hn; exact hh), v]; rfl
    · rw [if_neg hh, if_neg (fun h' => hh (h' _ v))]; rfl

open Classical in
theorem r_dev {p : Pieces} (h : p.Ok) :
    (parseLetterNumber (group p.caps .devL) (group p.caps .devN) devTable).map (fun o => o.map (·.2)) =
    if ∀ n, p.val.dev = some n → n < 2 ^ 63 then .ok p.val.dev else .error () := by
  rw [g_dev p (Or.inl rfl), g_dev p (Or.inr rfl)]
  rcases hp : p.dev with _ | y
  · have v : p.val.dev = none := by simp [val, hp]
    have c : p.cDev = [] := by simp [cDev, hp]
    simp [v, c, group, parseLetterNumber, Except.map]
  · have ok := h.dev y hp
    have v : p.val.dev = some (numOf y.d) := by simp [val, hp]
    have c : p.cDev = y.caps .devL .devN := by simp [cDev, hp]
    have hw : y.w = ['d', 'e', 'v'] := by simpa using ok.w
    rw [c, Wd.group_l, Wd.group_n (show Grp.devL ≠ .devN by simp),
      letterNumber_word (l := "dev".toList) (by simp [hw]) ok.d (by rw [hw]; decide)]
    by_cases hh : numOf y.d < 2 ^ 63
    · rw [if_pos hh, if_pos (by intro n hn; rw [v] at hn; cases hn; exact hh), v]; rfl
    · rw [if_neg hh, if_neg (fun h' => hh (h' _ v))]; rfl

theorem r_loc {p : Pieces} (h : p.Ok) (hs : p.Small) :
    (fieldsFunc isSep (group p.caps .loc)).map (fun p => parseSeg (toLower p)) = p.val.loc := by
  rw [g_loc]
  simp only [val, cLoc]
  rcases hl : p.loc with _ | ⟨g, ws⟩
  · rfl
  · have ok := h.loc g ws hl
    have al : ∀ {w : Str}, LowA w → Alnum w := fun hw => ⟨hw.1, fun c hc => lowA_ci c (hw.2 c hc)⟩
    have e : group [(Grp.loc, g ++ locTxt ws)] .loc = g ++ locTxt ws := by simp [group]
    simp only [e, fields_loc' (al ok.1) (fun q hq => ⟨(ok.2 q hq).1, al (ok.2 q hq).2⟩)]
    apply List.map_congr_left
    intro w hw
    apply parseSeg_low _ (hs g ws hl w hw)
    rw [List.mem_cons, List.mem_map] at hw
    rcases hw with rfl | ⟨q, hq, rfl⟩
    · exact ok.1
    · exact (ok.2 q hq).2

open Classical in
theorem parse_pieces {p : Pieces} (h : p.Ok) (hnf : p.NF) (hs : p.Small) :
    (Fits p.val → parseVersion p.text = .ok p.val) ∧ (¬ Fits p.val → parseVersion p.text = .error ()) := by
  have hm : parseVersion p.text = fromCaps p.caps := by
    unfold parseVersion; rw [match_pieces h hnf]
  rw [hm]
  unfold fromCaps
  rw [r_epoch h]
  by_cases h1 : p.val.epoch < 2 ^ 63
  rotate_left
  · simp only [h1, if_false]
    exact ⟨fun hf => absurd hf.1 h1, fun _ => trivial⟩
  rw [if_pos h1]
  simp only [r_release h, r_pre h, r_loc h hs]
  by_cases h2 : ∀ n ∈ p.val.release, n < 2 ^ 63
  rotate_left
  · rw [if_neg h2]
    exact ⟨fun hf => absurd hf.2.1 h2, fun _ => rfl⟩
  rw [if_pos h2]
  simp only
  by_cases h3 : ∀ l n, p.val.pre = some (l, n) → n < 2 ^ 63
  rotate_left
  · rw [if_neg h3]
    exact ⟨fun hf => absurd hf.2.2.1 h3, fun _ => rfl⟩
  rw [if_pos h3]
  simp only
  have r4 := r_post h
  have r5 := r_dev h
  rcases e4 : parseLetterNumber (group p.caps .postL) (group p.caps .postN1 ++ group p.caps .postN2) postTable with _ | o4
  · rw [e4] at r4
    by_cases h4 : ∀ n, p.val.post = some n → n < 2 ^ 63
    · rw [if_pos h4] at r4; cases r4
    · exact ⟨fun hf => absurd hf.2.2.2.1 h4, fun _ => rfl⟩
  rw [e4] at r4
  by_cases h4 : ∀ n, p.val.post = some n → n < 2 ^ 63
  rotate_left
  · rw [if_neg h4] at r4; cases r4
  rw [if_pos h4] at r4
  injection r4 with r4
  rcases e5 : parseLetterNumber (group p.caps .devL) (group p.caps .devN) devTable with _ | o5
  · rw [e5] at r5
    by_cases h5 : ∀ n, p.val.dev = some n → n < 2 ^ 63
    · rw [if_pos h5] at r5; cases r5
    · exact ⟨fun hf => absurd hf.2.2.2.2 h5, fun _ => rfl⟩
  rw [e5] at r5
  by_cases h5 : ∀ n, p.val.dev = some n → n < 2 ^ 63
  rotate_left
  · rw [if_neg h5] at r5; cases r5
  rw [if_pos h5] at r5
  injection r5 with r5
  simp only [r4, r5]
  exact ⟨fun _ => trivial, fun hf => absurd ⟨h1, h2, h3, h4, h5⟩ hf⟩

end Pieces

end Pep440
