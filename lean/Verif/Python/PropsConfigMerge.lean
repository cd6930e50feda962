import Verif.Python.ConfigMergeSpec
import Verif.Python.Interpolate
import Verif.Python.PropsConfig
/-! C153: configuration files with repeated sections and options, read without `Strict`. -/
namespace Python
open Go

variable {q : Parser}

/-- the strict parser -/
def tight (q : Parser) : Parser := { q with strict := true }

theorem tight_usual (hq : Spec.Lenient q) : Spec.Usual (tight q) := ⟨rfl, hq.empty, hq.inline, hq.delims, hq.prefixes⟩

/-! ### one line -/

theorem merge_comment (hq : Spec.Lenient q) {l : Str} (h : Spec.Comment q l) (st : CfgState) : cfgLine q st l = .ok st := by
  have h0 : commentStart q l = 0 ∧ l ≠ [] := (commentStart_eq (tight_usual hq) l).1 h
  obtain ⟨h1, h2⟩ := h0
  unfold cfgLine
  simp only [h1, List.take_zero]
  rw [if_pos (by decide), if_pos hq.empty]
  cases hv : st.val with
  | none => rfl
  | some vs =>
    simp only
    rw [if_neg]
    intro e
    exact h2 (List.length_eq_zero_iff.mp e.symm)

theorem merge_blank (hq : Spec.Lenient q) {l : Str} (h : Spec.Blank l) (hc : ¬ Spec.Comment q l) (st : CfgState) :
    cfgLine q st l = .ok { st with val := st.val.map (· ++ [[]]) } := by
  have h1 : commentStart q l = l.length := (commentStart_eq (tight_usual hq) l).2 hc
  unfold cfgLine
  simp only [h1, List.take_length]
  rw [if_pos (trimSpace_eq_nil.mpr h), if_pos hq.empty]
  obtain ⟨cfg, ind, s, k, v⟩ := st
  cases v with
  | none => rfl
  | some vs => simp only; rw [if_pos trivial, trimSpace_eq_nil.mpr h]; rfl

theorem merge_content (hq : Spec.Lenient q) {l : Str} (h : Spec.Content q l) (st : CfgState) :
    cfgLine q st l =
      if st.val.isSome ∧ 0 < Spec.indent l ∧ st.indent < Spec.indent l then .ok { st with val := some (st.val.getD [] ++ [trimSpace l]) }
      else if hasPrefix (trimSpace l) ['['] && hasSuffix (trimSpace l) [']'] then sectionLine q st (Spec.indent l) (trimSpace l)
      else optionLine q st (Spec.indent l) (trimSpace l) := by
  have h1 : commentStart q l = l.length := (commentStart_eq (tight_usual hq) l).2 h.1
  unfold cfgLine
  simp only [h1, List.take_length, indentLevel_eq h.2]
  rw [if_neg (fun e => h.2 (trimSpace_eq_nil.mp e))]

theorem merge_line_nl (hq : Spec.Lenient q) (st : CfgState) (l : Str) : cfgLine q st (l ++ ['\n']) = cfgLine q st l := by
  by_cases hc : Spec.Comment q l
  · rw [merge_comment hq hc, merge_comment hq ((comment_nl l).mpr hc)]
  have hc' : ¬ Spec.Comment q (l ++ ['\n']) := fun h => hc ((comment_nl l).mp h)
  by_cases hb : Spec.Blank l
  · rw [merge_blank hq hb hc, merge_blank hq ((blank_nl l).mpr hb) hc']
  · rw [merge_content hq ⟨hc, hb⟩, merge_content hq ⟨hc', fun h => hb ((blank_nl l).mp h)⟩, trim_nl, indent_nl hb]

theorem merge_lines_nl (hq : Spec.Lenient q) (ls : List Str) : ∀ st, cfgLines q st (withNewline ls) = cfgLines q st ls := by
  induction ls with
  | nil => intro st; rfl
  | cons l ls ih =>
    intro st
    cases ls with
    | nil => rfl
    | cons l2 ls =>
      rw [show withNewline (l :: l2 :: ls) = (l ++ ['\n']) :: withNewline (l2 :: ls) from rfl, cfgLines, cfgLines, merge_line_nl hq]
      cases cfgLine q st l with
      | error e => rfl
      | ok st' => exact ih st'

theorem merge_parse_lines (hq : Spec.Lenient q) (text : Str) : parseConfig q text = finish q ⟨[], 0, none, [], none⟩ (split '\n' text) := by
  unfold parseConfig readLines
  rw [merge_lines_nl hq]
  rfl

/-! ### the run -/

/-- the section exists -/
def enter (c : Config) (n : Str) : Config := if getKey n c = none then setKey n [] c else c

/-- options are stored in a section -/
def addOptions (c : Config) (s : Str) (os : List (Str × List Str)) : Config := os.foldl (fun c o => putOption c (s, o.1) (Spec.value o.2)) c

/-- sections are stored -/
def merge (c : Config) (d : List (Str × List (Str × List Str))) : Config := d.foldl (fun c e => addOptions (enter c e.1) e.1 e.2) c

theorem merge_section (hq : Spec.Lenient q) (c : Config) (ind : Nat) (s : Option Str) (key : Str) (lev : Nat) (n : Str) :
    sectionLine q ⟨c, ind, s, key, none⟩ lev ('[' :: (n ++ [']'])) = .ok ⟨enter c n, lev, some n, key, none⟩ := by
  unfold sectionLine
  rw [show flushKV ⟨c, ind, s, key, none⟩ = ⟨c, ind, s, key, none⟩ from rfl, header_name]
  unfold enter
  simp only [hq.strict, Bool.false_eq_true, if_false]
  split <;> rfl

theorem merge_option (hq : Spec.Lenient q) (c : Config) (ind : Nat) (s key : Str) (lev : Nat) {a b : Str} {x : Char}
    (hf : findSep q.delimiters (a ++ x :: b) = (a.length, 1)) :
    optionLine q ⟨c, ind, some s, key, none⟩ lev (a ++ x :: b) = .ok ⟨c, lev, some s, q.transform (trimSpace a), some [trimSpace b]⟩ := by
  unfold optionLine
  rw [show flushKV ⟨c, ind, some s, key, none⟩ = ⟨c, ind, some s, key, none⟩ from rfl]
  simp only [hf, hq.strict, Bool.false_eq_true, false_and, if_false]
  rw [if_neg (by simp), List.take_left']
  · rw [show (a ++ x :: b).drop (a.length + 1) = b by simp]
  · rfl

/-- claim about runs with no value open -/
def MergeB (q : Parser) (ls : List Str) : Prop :=
  ∀ (c0 : Config) (ind : Nat) (s key : Str) (c : Config), finish q ⟨c0, ind, some s, key, none⟩ ls = .ok c ↔
    ∃ os rest d, Spec.Options q ls os rest ∧ Spec.Document q rest d ∧ c = merge (addOptions c0 s os) d

/-- claim about runs with a value open -/
def MergeC (q : Parser) (ls : List Str) : Prop :=
  ∀ (c0 : Config) (ind : Nat) (s k : Str) (vs : List Str) (c : Config), finish q ⟨c0, ind, some s, k, some vs⟩ ls = .ok c ↔
    ∃ vs' mid os rest d, Spec.Continues q ind ls vs' mid ∧ Spec.Options q mid os rest ∧ Spec.Document q rest d ∧
      c = merge (addOptions c0 s ((k, vs ++ vs') :: os)) d

theorem mergeB_nil : MergeB q [] := by
  intro c0 ind s key c
  rw [finish_nil]
  constructor
  · intro h
    cases h
    exact ⟨[], [], [], .eof, .eof, rfl⟩
  · rintro ⟨os, rest, d, h1, h2, rfl⟩
    cases h1
    cases h2
    rfl

theorem mergeC_nil : MergeC q [] := by
  intro c0 ind s k vs c
  rw [finish_nil]
  constructor
  · intro h
    cases h
    exact ⟨[], [], [], [], [], .eof, .eof, .eof, by rw [List.append_nil]; rfl⟩
  · rintro ⟨vs', mid, os, rest, d, h0, h1, h2, rfl⟩
    cases h0
    cases h1
    cases h2
    rw [List.append_nil]
    rfl

theorem mergeB_cons (hq : Spec.Lenient q) {l : Str} {ls : List Str} (hB : MergeB q ls) (hC : MergeC q ls) : MergeB q (l :: ls) := by
  intro c0 ind s key c
  by_cases hc : Spec.Comment q l
  · rw [finish_ok (merge_comment hq hc _), hB]
    simp only [options_skip (Or.inl hc)]
  by_cases hb : Spec.Blank l
  · rw [finish_ok (merge_blank hq hb hc _)]
    simp only [Option.map_none]
    rw [hB]
    simp only [options_skip (Or.inr hb)]
  have hl : Spec.Content q l := ⟨hc, hb⟩
  have hline := merge_content hq hl ⟨c0, ind, some s, key, none⟩
  rw [if_neg (by rintro ⟨h1, _⟩; cases h1)] at hline
  by_cases hh : (hasPrefix (trimSpace l) ['['] && hasSuffix (trimSpace l) [']']) = true
  · rw [if_pos hh] at hline
    obtain ⟨n, hn'⟩ := (header_iff _).mp hh
    have hd : Spec.SectionHeader l n := hn'
    rw [hn', merge_section hq] at hline
    rw [finish_ok hline, hB]
    constructor
    · rintro ⟨os', rest, d, h1, h2, rfl⟩
      exact ⟨[], l :: ls, (n, os') :: d, .done hl hd, (document_header hl hd).mpr ⟨_, _, _, h1, h2, rfl⟩, rfl⟩
    · rintro ⟨os', rest, d, h1, h2, rfl⟩
      cases h1 with
      | done =>
        obtain ⟨os'', rest', d', h6, h7, rfl⟩ := (document_header hl hd).mp h2
        exact ⟨os'', rest', d', h6, h7, rfl⟩
      | skip h1 _ => exact absurd hl (comment_not_content h1)
      | opt _ h2 _ _ _ => exact absurd hd (h2 n)
  · rw [if_neg hh] at hline
    have hd : ∀ t, ¬ Spec.SectionHeader l t := fun t ht => hh ((header_iff _).mpr ⟨t, ht⟩)
    rcases findSep_spec hq.delims (trimSpace l) with ⟨hf, hno⟩ | ⟨a, x, b, hv, hxd, ha, hf⟩
    · have : optionLine q ⟨c0, ind, some s, key, none⟩ (Spec.indent l) (trimSpace l) = .error () := by
        unfold optionLine
        rw [show flushKV ⟨c0, ind, some s, key, none⟩ = ⟨c0, ind, some s, key, none⟩ from rfl]
        simp only [hf]
        rw [if_pos trivial]
      rw [this] at hline
      rw [finish_error hline]
      refine ⟨fun h => (nomatch h), ?_⟩
      rintro ⟨os', rest, d, h1, _⟩
      exfalso
      cases h1 with
      | done _ h2 => exact hd _ h2
      | skip h1 _ => exact comment_not_content h1 hl
      | opt _ _ h3 _ _ =>
        obtain ⟨a, x, b, e, hxd, _⟩ := h3
        exact hno x (by rw [e]; simp) hxd
    · rw [hv] at hf hline
      rw [merge_option hq _ _ _ _ _ hf] at hline
      have hkv : Spec.KeyValue q l (q.transform (trimSpace a)) (trimSpace b) := ⟨a, x, b, hv, hxd, ha, rfl, rfl⟩
      rw [finish_ok hline, hC]
      constructor
      · rintro ⟨vs', mid, os', rest, d, h1, h2, h3, rfl⟩
        exact ⟨_, rest, d, .opt hl hd hkv h1 h2, h3, rfl⟩
      · rintro ⟨os', rest, d, h1, h2, rfl⟩
        cases h1 with
        | done _ h6 => exact absurd h6 (hd _)
        | skip h1 _ => exact absurd hl (comment_not_content h1)
        | opt _ _ h3 h4 h5 =>
          obtain ⟨rfl, rfl⟩ := keyValue_det hv hxd ha h3
          exact ⟨_, _, _, _, d, h4, h5, h2, rfl⟩

theorem mergeC_cons (hq : Spec.Lenient q) {l : Str} {ls : List Str} (hB : MergeB q (l :: ls)) (hC : MergeC q ls) : MergeC q (l :: ls) := by
  intro c0 ind s k vs c
  by_cases hc : Spec.Comment q l
  · rw [finish_ok (merge_comment hq hc _), hC]
    have : ∀ vs' mid, Spec.Continues q ind (l :: ls) vs' mid ↔ Spec.Continues q ind ls vs' mid := by
      intro vs' mid
      constructor
      · intro h
        cases h with
        | done h1 _ => exact absurd h1 (comment_not_content (Or.inl hc))
        | comment _ h2 => exact h2
        | blank h1 _ => exact absurd hc (blank_not_comment (p := tight q) (tight_usual hq) h1)
        | more h1 _ _ _ => exact absurd h1 (comment_not_content (Or.inl hc))
      · exact .comment hc
    simp only [this]
  by_cases hb : Spec.Blank l
  · rw [finish_ok (merge_blank hq hb hc _)]
    simp only [Option.map_some]
    rw [hC]
    constructor
    · rintro ⟨vs', mid, os', rest, d, h1, h2, h3, rfl⟩
      exact ⟨[] :: vs', mid, os', rest, d, .blank hb h1, h2, h3, by simp⟩
    · rintro ⟨vs', mid, os', rest, d, h1, h2, h3, rfl⟩
      cases h1 with
      | done h1 _ => exact absurd h1 (comment_not_content (Or.inr hb))
      | comment h1 _ => exact absurd h1 hc
      | blank _ h1 => exact ⟨_, mid, os', rest, d, h1, h2, h3, by simp⟩
      | more h1 _ _ _ => exact absurd h1 (comment_not_content (Or.inr hb))
  have hl : Spec.Content q l := ⟨hc, hb⟩
  by_cases hi : 0 < Spec.indent l ∧ ind < Spec.indent l
  · have hline := merge_content hq hl ⟨c0, ind, some s, k, some vs⟩
    rw [if_pos ⟨rfl, hi.1, hi.2⟩] at hline
    simp only [Option.getD_some] at hline
    rw [finish_ok hline, hC]
    constructor
    · rintro ⟨vs', mid, os', rest, d, h1, h2, h3, rfl⟩
      exact ⟨trimSpace l :: vs', mid, os', rest, d, .more hl hi.1 hi.2 h1, h2, h3, by simp⟩
    · rintro ⟨vs', mid, os', rest, d, h1, h2, h3, rfl⟩
      cases h1 with
      | done _ h1 => exfalso; omega
      | comment h1 _ => exact absurd h1 hc
      | blank h1 _ => exact absurd h1 hb
      | more _ _ _ h1 => exact ⟨_, mid, os', rest, d, h1, h2, h3, by simp⟩
  · have hi' : Spec.indent l = 0 ∨ Spec.indent l ≤ ind := by omega
    have hline : cfgLine q ⟨c0, ind, some s, k, some vs⟩ l = cfgLine q ⟨putOption c0 (s, k) (Spec.value vs), ind, some s, [], none⟩ l := by
      have n1 : ¬ ((⟨c0, ind, some s, k, some vs⟩ : CfgState).val.isSome ∧ 0 < Spec.indent l ∧
          (⟨c0, ind, some s, k, some vs⟩ : CfgState).indent < Spec.indent l) := fun h => hi h.2
      have n2 : ¬ ((⟨putOption c0 (s, k) (Spec.value vs), ind, some s, [], none⟩ : CfgState).val.isSome ∧ 0 < Spec.indent l ∧
          (⟨putOption c0 (s, k) (Spec.value vs), ind, some s, [], none⟩ : CfgState).indent < Spec.indent l) := by
        rintro ⟨h1, _⟩; cases h1
      rw [merge_content hq hl, merge_content hq hl, if_neg n1, if_neg n2]
      rfl
    have e : finish q ⟨c0, ind, some s, k, some vs⟩ (l :: ls) =
        finish q ⟨putOption c0 (s, k) (Spec.value vs), ind, some s, [], none⟩ (l :: ls) := by
      unfold finish
      rw [cfgLines, cfgLines, hline]
    rw [e, hB]
    constructor
    · rintro ⟨os', rest, d, h1, h2, rfl⟩
      exact ⟨[], l :: ls, os', rest, d, .done hl hi', h1, h2, by rw [List.append_nil]; rfl⟩
    · rintro ⟨vs', mid, os', rest, d, h1, h2, h3, rfl⟩
      cases h1 with
      | done _ h1 => exact ⟨os', rest, d, h2, h3, by rw [List.append_nil]; rfl⟩
      | comment h1 _ => exact absurd h1 hc
      | blank h1 _ => exact absurd h1 hb
      | more _ h1 h2 _ => exfalso; omega

theorem merge_both (hq : Spec.Lenient q) (ls : List Str) : MergeB q ls ∧ MergeC q ls := by
  induction ls with
  | nil => exact ⟨mergeB_nil, mergeC_nil⟩
  | cons l ls ih =>
    have hB := mergeB_cons hq (l := l) ih.1 ih.2
    exact ⟨hB, mergeC_cons hq hB ih.2⟩

theorem merge_A (hq : Spec.Lenient q) (ls : List Str) (c : Config) :
    finish q ⟨[], 0, none, [], none⟩ ls = .ok c ↔ ∃ d, Spec.Document q ls d ∧ c = merge [] d := by
  induction ls with
  | nil =>
    rw [finish_nil]
    constructor
    · intro h
      cases h
      exact ⟨[], .eof, rfl⟩
    · rintro ⟨d, h1, rfl⟩
      cases h1
      rfl
  | cons l ls ih =>
    by_cases hc : Spec.Comment q l
    · rw [finish_ok (merge_comment hq hc _), ih]
      simp only [document_skip (Or.inl hc)]
    by_cases hb : Spec.Blank l
    · rw [finish_ok (merge_blank hq hb hc _)]
      simp only [Option.map_none, document_skip (Or.inr hb)]
      exact ih
    have hl : Spec.Content q l := ⟨hc, hb⟩
    have hline := merge_content hq hl ⟨[], 0, none, [], none⟩
    rw [if_neg (by rintro ⟨h1, _⟩; cases h1)] at hline
    by_cases hh : (hasPrefix (trimSpace l) ['['] && hasSuffix (trimSpace l) [']']) = true
    · rw [if_pos hh] at hline
      obtain ⟨n, hn'⟩ := (header_iff _).mp hh
      have hd : Spec.SectionHeader l n := hn'
      rw [hn', merge_section hq] at hline
      rw [finish_ok hline, (merge_both hq ls).1]
      constructor
      · rintro ⟨os', rest, d, h1, h2, rfl⟩
        exact ⟨(n, os') :: d, .sect hl hd h1 h2, rfl⟩
      · rintro ⟨d, h1, rfl⟩
        obtain ⟨os', rest, d', h4, h5, rfl⟩ := (document_header hl hd).mp h1
        exact ⟨os', rest, d', h4, h5, rfl⟩
    · rw [if_neg hh] at hline
      have : optionLine q ⟨[], 0, none, [], none⟩ (Spec.indent l) (trimSpace l) = .error () := rfl
      rw [this] at hline
      rw [finish_error hline]
      refine ⟨fun h => (nomatch h), ?_⟩
      rintro ⟨d, h1, _⟩
      exfalso
      cases h1 with
      | skip h1 _ => exact comment_not_content h1 hl
      | sect _ h1 _ _ => exact hh ((header_iff _).mpr ⟨_, h1⟩)

/-! ### what is stored -/

theorem getKey_setKey {α : Type} (k k' : Str) (v : α) : ∀ m : List (Str × α), getKey k' (setKey k v m) = if k' = k then some v else getKey k' m
  | [] => by
    rw [setKey, getKey, getKey, getKey]
    simp only
    by_cases h : k = k'
    · rw [if_pos h, if_pos h.symm]
    · rw [if_neg h, if_neg (fun e => h e.symm)]
  | e :: m => by
    rw [setKey]
    by_cases h : e.1 = k
    · rw [if_pos h, getKey, getKey]
      by_cases h' : k = k'
      · rw [if_pos h', if_pos h'.symm]
      · rw [if_neg h', if_neg (fun x => h' x.symm), if_neg (fun x => h' (h.symm.trans x))]
    · rw [if_neg h, getKey, getKey, getKey_setKey k k' v m]
      by_cases h' : e.1 = k'
      · rw [if_pos h', if_pos h', if_neg (fun x => h (h'.trans x))]
      · rw [if_neg h', if_neg h']

/-- `config[sect][key]` with the presence flag -/
def lookup (c : Config) (x : Str × Str) : Option Str := (getKey x.1 c).bind (getKey x.2)

theorem lookup_put (c : Config) (x y : Str × Str) (v : Str) : lookup (putOption c x v) y = if y = x then some v else lookup c y := by
  obtain ⟨s, k⟩ := x
  obtain ⟨s', k'⟩ := y
  unfold lookup putOption
  simp only [getKey_setKey]
  by_cases hs : s' = s
  · subst hs
    rw [if_pos rfl, Option.bind_some, getKey_setKey]
    by_cases hk : k' = k
    · rw [if_pos hk, if_pos (by rw [hk])]
    · rw [if_neg hk, if_neg (fun e => hk (Prod.mk.inj e).2)]
      cases getKey s' c with
      | none => rfl
      | some m => rfl
  · rw [if_neg hs, if_neg (fun e => hs (Prod.mk.inj e).1)]

theorem has_put (c : Config) (x : Str × Str) (v s : Str) : (getKey s (putOption c x v)).isSome ↔ s = x.1 ∨ (getKey s c).isSome := by
  unfold putOption
  rw [getKey_setKey]
  by_cases h : s = x.1
  · simp [h]
  · simp [h]

theorem lookup_enter (c : Config) (n : Str) (y : Str × Str) : lookup (enter c n) y = lookup c y := by
  unfold enter
  by_cases h : getKey n c = none
  · rw [if_pos h]
    unfold lookup
    rw [getKey_setKey]
    by_cases hy : y.1 = n
    · rw [if_pos hy, hy, h]; rfl
    · rw [if_neg hy]
  · rw [if_neg h]

theorem has_enter (c : Config) (n s : Str) : (getKey s (enter c n)).isSome ↔ s = n ∨ (getKey s c).isSome := by
  unfold enter
  by_cases h : getKey n c = none
  · rw [if_pos h, getKey_setKey]
    by_cases hs : s = n
    · simp [hs]
    · simp [hs]
  · rw [if_neg h]
    refine ⟨.inr, fun hs => hs.elim (fun e => ?_) id⟩
    rw [e]
    exact Option.isSome_iff_ne_none.mpr h

/-- what is known of `y` after the sayings `l`, if before it was `b` -/
def over (l : List ((Str × Str) × Str)) (y : Str × Str) (b : Option Str) : Option Str :=
  l.foldl (fun b x => if y = x.1 then some x.2 else b) b

theorem lookup_add (s : Str) (y : Str × Str) : ∀ (os : List (Str × List Str)) (c : Config),
    lookup (addOptions c s os) y = over (os.map (fun o => ((s, o.1), Spec.value o.2))) y (lookup c y)
  | [], _ => rfl
  | o :: os, c => by
    rw [show addOptions c s (o :: os) = addOptions (putOption c (s, o.1) (Spec.value o.2)) s os from rfl, lookup_add s y os, lookup_put]
    rfl

theorem has_add (s t : Str) : ∀ (os : List (Str × List Str)) (c : Config), (getKey s c).isSome →
    ((getKey t (addOptions c s os)).isSome ↔ (getKey t c).isSome)
  | [], _, _ => Iff.rfl
  | o :: os, c, h => by
    rw [show addOptions c s (o :: os) = addOptions (putOption c (s, o.1) (Spec.value o.2)) s os from rfl,
      has_add s t os _ ((has_put _ _ _ _).mpr (.inl rfl)), has_put]
    exact ⟨fun x => x.elim (fun e => by rw [e]; exact h) id, .inr⟩

theorem over_append (l l' : List ((Str × Str) × Str)) (y : Str × Str) (b : Option Str) : over (l ++ l') y b = over l' y (over l y b) := by
  unfold over
  rw [List.foldl_append]

theorem lookup_merge (y : Str × Str) : ∀ (d : List (Str × List (Str × List Str))) (c : Config),
    lookup (merge c d) y = over (Spec.said d) y (lookup c y)
  | [], _ => rfl
  | e :: d, c => by
    rw [show merge c (e :: d) = merge (addOptions (enter c e.1) e.1 e.2) d from rfl, lookup_merge y d, lookup_add, lookup_enter, ← over_append]
    rfl

theorem has_merge (t : Str) : ∀ (d : List (Str × List (Str × List Str))) (c : Config),
    (getKey t (merge c d)).isSome ↔ (getKey t c).isSome ∨ ∃ e ∈ d, e.1 = t
  | [], _ => by simp [merge]
  | e :: d, c => by
    rw [show merge c (e :: d) = merge (addOptions (enter c e.1) e.1 e.2) d from rfl, has_merge t d,
      has_add _ _ _ _ ((has_enter _ _ _).mpr (.inl rfl)), has_enter]
    simp only [List.mem_cons, exists_eq_or_imp]
    constructor
    · rintro ((h | h) | h)
      · exact .inr (.inl h.symm)
      · exact .inl h
      · exact .inr (.inr h)
    · rintro (h | h | h)
      · exact .inl (.inr h)
      · exact .inl (.inl h.symm)
      · exact .inr h

theorem over_iff (y : Str × Str) (v : Str) : ∀ (l : List ((Str × Str) × Str)) (b : Option Str),
    over l y b = some v ↔ Spec.Last l y v ∨ ((∀ x ∈ l, x.1 ≠ y) ∧ b = some v)
  | [], b => by
    constructor
    · intro h
      exact .inr ⟨fun _ h => (nomatch h), h⟩
    · rintro (⟨a, b', e, _⟩ | ⟨_, h⟩)
      · cases a <;> cases e
      · exact h
  | x :: l, b => by
    rw [show over (x :: l) y b = over l y (if y = x.1 then some x.2 else b) from rfl, over_iff y v l]
    constructor
    · rintro (⟨a, b', rfl, h⟩ | ⟨h1, h2⟩)
      · exact .inl ⟨x :: a, b', rfl, h⟩
      · by_cases hx : y = x.1
        · rw [if_pos hx] at h2
          cases h2
          exact .inl ⟨[], l, by rw [hx]; rfl, h1⟩
        · rw [if_neg hx] at h2
          exact .inr ⟨fun z hz => (List.mem_cons.mp hz).elim (fun e => by rw [e]; exact fun e => hx e.symm) (h1 z), h2⟩
    · rintro (⟨a, b', e, h⟩ | ⟨h1, h2⟩)
      · cases a with
        | nil =>
          cases e
          exact .inr ⟨h, if_pos rfl⟩
        | cons z a =>
          cases e
          exact .inl ⟨a, b', rfl, h⟩
      · refine .inr ⟨fun z hz => h1 z (by simp [hz]), ?_⟩
        rw [if_neg (fun e => h1 x (by simp) e.symm), h2]

/-! ### the property -/

/-- **C153** without `Strict`, `Parse` succeeds exactly for documents, also with repeated sections and options -/
theorem C153_accepts (hq : Spec.Lenient q) (text : Str) : (∃ c, parseConfig q text = .ok c) ↔ ∃ d, Spec.Document q (split '\n' text) d := by
  rw [merge_parse_lines hq]
  constructor
  · rintro ⟨c, h⟩
    obtain ⟨d, hd, _⟩ := (merge_A hq _ c).mp h
    exact ⟨d, hd⟩
  · rintro ⟨d, hd⟩
    exact ⟨_, (merge_A hq _ _).mpr ⟨d, hd, rfl⟩⟩

/-- **C153** without `Strict`, the sections that `Parse` gives are those of the document, and an option of a section has the value that is
given last for it, in any of the parts with the name of the section; there are no other options -/
theorem C153_last (hq : Spec.Lenient q) {text : Str} {d : List (Str × List (Str × List Str))} (hd : Spec.Document q (split '\n' text) d) :
    ∃ c, parseConfig q text = .ok c ∧ (∀ s, (getKey s c).isSome ↔ ∃ e ∈ d, e.1 = s) ∧
      ∀ s k v, (getKey s c).bind (getKey k) = some v ↔ Spec.Last (Spec.said d) (s, k) v := by
  refine ⟨merge [] d, ?_, fun s => ?_, fun s k v => ?_⟩
  · rw [merge_parse_lines hq]
    exact (merge_A hq _ _).mpr ⟨d, hd, rfl⟩
  · rw [has_merge]
    simp [getKey]
  · refine Iff.trans (b := lookup (merge [] d) (s, k) = some v) Iff.rfl ?_
    rw [lookup_merge, over_iff]
    simp [lookup, getKey]

theorem options_tight {ls rest : List Str} {os : List (Str × List Str)} (h : Spec.Options (tight q) ls os rest) : Spec.Options q ls os rest := by
  have hcont : ∀ {k ls vs rest}, Spec.Continues (tight q) k ls vs rest → Spec.Continues q k ls vs rest := by
    intro k ls vs rest h
    induction h with
    | eof => exact .eof
    | done h1 h2 => exact .done h1 h2
    | comment h1 _ ih => exact .comment h1 ih
    | blank h1 _ ih => exact .blank h1 ih
    | more h1 h2 h3 _ ih => exact .more h1 h2 h3 ih
  induction h with
  | eof => exact .eof
  | done h1 h2 => exact .done h1 h2
  | skip h1 _ ih => exact .skip h1 ih
  | opt h1 h2 h3 h4 _ ih => exact .opt h1 h2 h3 (hcont h4) ih

theorem document_tight {ls : List Str} {d : List (Str × List (Str × List Str))} (h : Spec.Document (tight q) ls d) : Spec.Document q ls d := by
  induction h with
  | eof => exact .eof
  | skip h1 _ ih => exact .skip h1 ih
  | sect h1 h2 h3 _ ih => exact .sect h1 h2 (options_tight h3) ih

theorem add_stored {pre : Config} {s : Str} (hs : s ∉ pre.map (·.1)) : ∀ (os : List (Str × List Str)) (os0 : List (Str × Str)),
    (os0.map (·.1) ++ os.map (·.1)).Nodup → addOptions (pre ++ [(s, os0)]) s os = pre ++ [(s, os0 ++ stored os)]
  | [], os0, _ => by simp [addOptions, stored]
  | o :: os, os0, hn => by
    have hk : o.1 ∉ os0.map (·.1) := by
      intro h
      rw [List.nodup_append] at hn
      exact hn.2.2 _ h _ (by simp) rfl
    rw [show addOptions (pre ++ [(s, os0)]) s (o :: os) = addOptions (putOption (pre ++ [(s, os0)]) (s, o.1) (Spec.value o.2)) s os from rfl]
    unfold putOption
    simp only
    rw [getKey_last hs, Option.getD_some, setKey_new hk, setKey_last hs, add_stored hs os _ (by simpa using hn)]
    simp [stored]

theorem merge_distinct : ∀ (d : List (Str × List (Str × List Str))) (pre : Config), (pre.map (·.1) ++ d.map (·.1)).Nodup →
    (∀ e ∈ d, (e.2.map (·.1)).Nodup) → merge pre d = pre ++ Spec.toConfig d
  | [], pre, _, _ => by simp [merge, Spec.toConfig]
  | e :: d, pre, hn, ho => by
    have hs : e.1 ∉ pre.map (·.1) := by
      intro h
      rw [List.nodup_append] at hn
      exact hn.2.2 _ h _ (by simp) rfl
    rw [show merge pre (e :: d) = merge (addOptions (enter pre e.1) e.1 e.2) d from rfl]
    unfold enter
    rw [if_pos (getKey_none.mpr hs), setKey_new hs, add_stored hs e.2 [] (by simpa using ho e (by simp)),
      merge_distinct d _ (by simpa using hn) (fun x hx => ho x (by simp [hx]))]
    simp [Spec.toConfig, stored]

/-- **C153** what the strict parser accepts means the same without `Strict` -/
theorem C153_agrees (hq : Spec.Lenient q) {text : Str} {c : Config} (h : parseConfig { q with strict := true } text = .ok c) :
    parseConfig q text = .ok c := by
  obtain ⟨d, hd, hdis, rfl⟩ := (C75_parse (tight_usual hq) text c).mp h
  rw [merge_parse_lines hq]
  refine (merge_A hq _ _).mpr ⟨d, ?_, ?_⟩
  · exact document_tight hd
  · rw [merge_distinct d [] (by simpa using hdis.1) hdis.2]
    rfl

/-- the parser of the example -/
def lenient : Parser := { newConfigParser with strict := false }

theorem lenient_lenient : Spec.Lenient lenient := ⟨rfl, rfl, rfl, usual_new.delims, usual_new.prefixes⟩

/-- a text in which the section `s` and its option `a` occur twice: it is accepted (so it is a document, by `C153_accepts`), the later value holds,
and the option `b`, which is not repeated, stays -/
example : ∃ d, Spec.Lenient lenient ∧ Spec.Document lenient (split '\n' "[s]\na = 1\nb = 2\n[t]\n[s]\na = 3".toList) d ∧
    parseConfig lenient "[s]\na = 1\nb = 2\n[t]\n[s]\na = 3".toList =
      .ok [("s".toList, [("a".toList, "3".toList), ("b".toList, "2".toList)]), ("t".toList, [])] := by
  obtain ⟨d, hd⟩ := (C153_accepts lenient_lenient "[s]\na = 1\nb = 2\n[t]\n[s]\na = 3".toList).mp ⟨_, rfl⟩
  exact ⟨d, lenient_lenient, hd, rfl⟩

/-- the hypothesis of `C153_agrees` holds of a text with two sections and a value of two lines -/
example : parseConfig { lenient with strict := true } "[s]\na = 1\n  2\n[t]\na : 3".toList =
    .ok [("s".toList, [("a".toList, "1\n2".toList)]), ("t".toList, [("a".toList, "3".toList)])] := rfl

end Python
