import Verif.Python.ConfigInlineSpec
import Verif.Python.PropsConfig
/-! C151: inline comments in configuration files. -/
namespace Python
open Go

variable {p : Parser}

/-- the parser without inline comments -/
def bare (p : Parser) : Parser := { p with inlineCommentPrefixes := [] }

theorem bare_usual (hp : Spec.Inline p) : Spec.Usual (bare p) := ⟨hp.strict, hp.empty, rfl, hp.delims, hp.prefixes⟩

/-! ### where the comment starts -/

theorem strIndex_absent {c : Char} : ∀ {l : Str}, c ∉ l → strIndex [c] l = none
  | [], _ => rfl
  | d :: l, h => by
    have hd : c ≠ d := fun e => h (by simp [e])
    have hl : c ∉ l := fun e => h (by simp [e])
    rw [strIndex, if_neg, strIndex_absent hl]
    · rfl
    · simp [List.isPrefixOf, hd]

theorem strIndex_here {c : Char} {r : Str} : ∀ {l : Str}, c ∉ l → strIndex [c] (l ++ c :: r) = some l.length
  | [], _ => by simp [strIndex, List.isPrefixOf]
  | d :: l, h => by
    have hd : c ≠ d := fun e => h (by simp [e])
    have hl : c ∉ l := fun e => h (by simp [e])
    rw [List.cons_append, strIndex, if_neg, strIndex_here hl]
    · rfl
    · simp [List.isPrefixOf, hd]

theorem strIndex_later {c : Char} {r : Str} {i : Nat} : ∀ {l : Str}, c ∉ l → strIndex [c] (l ++ r) = some i → l.length ≤ i
  | [], _, _ => Nat.zero_le _
  | d :: l, h, hi => by
    have hd : c ≠ d := fun e => h (by simp [e])
    have hl : c ∉ l := fun e => h (by simp [e])
    rw [List.cons_append, strIndex, if_neg (by simp [List.isPrefixOf, hd])] at hi
    cases hj : strIndex [c] (l ++ r) with
    | none => rw [hj] at hi; cases hi
    | some j =>
      rw [hj] at hi
      have := strIndex_later hl hj
      simp only [Option.map_some, Option.some.injEq] at hi
      simp only [List.length_cons]
      omega

/-- one step of the search for the start of an inline comment -/
def start (x : Str) (cs : Nat) (pre : Str) : Nat :=
  match strIndex pre x with
  | some i => if 0 < i ∧ i < cs then i else cs
  | none => cs

theorem start_ge {x : Str} {n cs : Nat} {pre : Str} (h : ∀ i, strIndex pre x = some i → n ≤ i) (hc : n ≤ cs) : n ≤ start x cs pre := by
  unfold start
  cases hi : strIndex pre x with
  | none => exact hc
  | some i =>
    simp only
    split
    · exact h i hi
    · exact hc

theorem fold_ge {x : Str} {n : Nat} : ∀ (ps : List Str) (cs : Nat), (∀ pre ∈ ps, ∀ i, strIndex pre x = some i → n ≤ i) → n ≤ cs →
    n ≤ ps.foldl (start x) cs
  | [], _, _, hc => hc
  | pre :: ps, _, h, hc => fold_ge ps _ (fun q hq => h q (by simp [hq])) (start_ge (h pre (by simp)) hc)

theorem start_le (x : Str) (cs : Nat) (pre : Str) : start x cs pre ≤ cs := by
  unfold start
  cases strIndex pre x with
  | none => exact Nat.le_refl _
  | some i => simp only; split <;> omega

theorem fold_le {x : Str} : ∀ (ps : List Str) (cs : Nat), ps.foldl (start x) cs ≤ cs
  | [], _ => Nat.le_refl _
  | pre :: ps, cs => Nat.le_trans (fold_le ps _) (start_le x cs pre)

theorem fold_at {x pre : Str} {n : Nat} (hn : 0 < n) (hx : strIndex pre x = some n) : ∀ (ps : List Str) (cs : Nat), pre ∈ ps →
    ps.foldl (start x) cs ≤ n
  | q :: ps, cs, h => by
    rcases List.mem_cons.mp h with rfl | h
    · refine Nat.le_trans (fold_le ps _) ?_
      unfold start
      rw [hx]
      simp only
      split <;> omega
    · exact fold_at hn hx ps _ h

theorem commentStart_fold (p : Parser) (x : Str) (h : ¬ Spec.Comment p x) : commentStart p x = p.inlineCommentPrefixes.foldl (start x) x.length := by
  unfold commentStart
  rw [if_neg]
  · rfl
  · intro h1
    obtain ⟨c, hc, hp⟩ := List.any_eq_true.mp h1
    exact h ⟨c, hc, by unfold hasPrefix at hp; exact List.isPrefixOf_iff_prefix.mp hp⟩

theorem commentStart_none (hp : Spec.Inline p) {x : Str} (hx : ∀ c ∈ x, [c] ∉ p.inlineCommentPrefixes) (h : ¬ Spec.Comment p x) :
    commentStart p x = x.length := by
  rw [commentStart_fold p x h]
  refine Nat.le_antisymm (fold_le _ _) (fold_ge _ _ ?_ (Nat.le_refl _))
  intro pre hpre i hi
  obtain ⟨c, rfl, _⟩ := hp.marks pre hpre
  rw [strIndex_absent (fun hc => hx c hc hpre)] at hi
  cases hi

theorem commentStart_at (hp : Spec.Inline p) {l r : Str} {c : Char} (hx : ∀ c ∈ l, [c] ∉ p.inlineCommentPrefixes)
    (hc : [c] ∈ p.inlineCommentPrefixes) (hl : l ≠ []) (h : ¬ Spec.Comment p (l ++ c :: r)) : commentStart p (l ++ c :: r) = l.length := by
  rw [commentStart_fold p _ h]
  refine Nat.le_antisymm (fold_at (List.length_pos_iff.mpr hl) (strIndex_here (fun h => hx c h hc)) _ _ hc) (fold_ge _ _ ?_ (by simp))
  intro pre hpre i hi
  obtain ⟨d, rfl, _⟩ := hp.marks pre hpre
  exact strIndex_later (fun h => hx d h hpre) hi

/-! ### one line -/

theorem inline_comment (hp : Spec.Inline p) {l : Str} (h : Spec.Comment p l) (st : CfgState) : cfgLine p st l = .ok st := by
  obtain ⟨c, hc, hpr⟩ := h
  have h1 : commentStart p l = 0 := by
    unfold commentStart
    exact if_pos (List.any_eq_true.mpr ⟨c, hc, by unfold hasPrefix; exact List.isPrefixOf_iff_prefix.mpr hpr⟩)
  have h2 : l ≠ [] := by
    rintro rfl
    exact hp.prefixes c hc (List.prefix_nil.mp hpr)
  unfold cfgLine
  simp only [h1, List.take_zero]
  rw [if_pos (by decide), if_pos hp.empty]
  cases hv : st.val with
  | none => rfl
  | some vs =>
    simp only
    rw [if_neg]
    intro e
    exact h2 (List.length_eq_zero_iff.mp e.symm)

theorem inline_without (hp : Spec.Inline p) {l : Str} (hx : ∀ c ∈ l, [c] ∉ p.inlineCommentPrefixes) (h : ¬ Spec.Comment p l) (st : CfgState) :
    cfgLine p st l = cfgLine (bare p) st l := by
  have e : commentStart p l = commentStart (bare p) l := by
    rw [commentStart_none hp hx h, (commentStart_eq (bare_usual hp) l).2 h]
  unfold cfgLine
  rw [e]
  rfl

/-- trimming the part before something that is not white space -/
theorem trim_before {l r : Str} {c : Char} (hl : ¬ Spec.Blank l) (hc : isSpace c = false) : trimSpace l <+: trimSpace (l ++ c :: r) := by
  unfold trimSpace
  rw [dropWhile_append_of (not_blank hl), List.reverse_append, List.reverse_cons, List.append_assoc]
  rw [show r.reverse ++ ([c] ++ (l.dropWhile isSpace).reverse) = (r.reverse ++ [c]) ++ (l.dropWhile isSpace).reverse by simp,
    dropWhile_append_of (l := r.reverse ++ [c]) ⟨c, by simp, hc⟩]
  rw [List.reverse_append, List.reverse_reverse]
  refine List.IsPrefix.trans ?_ (List.prefix_append _ _)
  rw [← List.reverse_suffix, List.reverse_reverse]
  exact List.dropWhile_suffix _

theorem inline_with (hp : Spec.Inline p) {l r : Str} {c : Char} (hx : ∀ c ∈ l, [c] ∉ p.inlineCommentPrefixes)
    (hc : [c] ∈ p.inlineCommentPrefixes) (hl : ¬ Spec.Blank l) (h : ¬ Spec.Comment p (l ++ c :: r)) (st : CfgState) :
    cfgLine p st (l ++ c :: r) = cfgLine (bare p) st l := by
  have hcs : isSpace c = false := by
    obtain ⟨d, e, hd⟩ := hp.marks _ hc
    cases e
    exact hd
  have hne : l ≠ [] := by rintro rfl; exact hl (fun _ h => nomatch h)
  have hnc : ¬ Spec.Comment p l := fun ⟨d, hd, hpr⟩ => h ⟨d, hd, hpr.trans (trim_before hl hcs)⟩
  have h1 := commentStart_at hp hx hc hne h
  have hb : ¬ Spec.Blank (l ++ c :: r) := fun hb => hl (fun d hd => hb d (by simp [hd]))
  have hi : indentLevel (l ++ c :: r) = Spec.indent l := by
    rw [indentLevel_eq hb]
    unfold Spec.indent
    rw [takeWhile_append_of (not_blank hl)]
  rw [line_content (bare_usual hp) (p := bare p) ⟨hnc, hl⟩]
  unfold cfgLine
  simp only [h1, List.take_left', hi]
  rw [if_neg (fun e => hl (trimSpace_eq_nil.mp e))]
  rfl

/-- the first of several -/
theorem first_of {α : Type} {P : α → Prop} : ∀ {l : List α}, (∃ d ∈ l, P d) → ∃ a c b, l = a ++ c :: b ∧ P c ∧ ∀ d ∈ a, ¬ P d
  | [], ⟨_, h, _⟩ => nomatch h
  | x :: l, h => by
    by_cases hx : P x
    · exact ⟨[], x, l, rfl, hx, fun _ h => nomatch h⟩
    · obtain ⟨d, hd, hP⟩ := h
      obtain ⟨a, c, b, rfl, hc, ha⟩ := first_of ⟨d, (List.mem_cons.mp hd).resolve_left (fun e => hx (e ▸ hP)), hP⟩
      exact ⟨x :: a, c, b, rfl, hc, fun y hy => (List.mem_cons.mp hy).elim (fun e => e ▸ hx) (ha y)⟩

theorem inline_line (hp : Spec.Inline p) {l l' : Str} (hs : Spec.Stripped p l l') (ha : Spec.Comment p l ∨ Spec.Apart p l) (st : CfgState) :
    cfgLine p st l = cfgLine (bare p) st l' ∧ cfgLine p st (l ++ ['\n']) = cfgLine (bare p) st l' := by
  have hnl : [('\n' : Char)] ∉ p.inlineCommentPrefixes := by
    intro h
    obtain ⟨d, e, hd⟩ := hp.marks _ h
    cases e
    revert hd
    decide
  rcases hs with ⟨hc, rfl⟩ | ⟨hc, hn, rfl⟩ | ⟨hc, hb, c, r, rfl, hm, _, hn⟩
  · rw [inline_comment hp hc, inline_comment hp ((comment_nl _).mpr hc), line_comment (bare_usual hp) (p := bare p) hc]
    exact ⟨rfl, rfl⟩
  · have hx : ∀ c ∈ l', [c] ∉ p.inlineCommentPrefixes := by
      intro c hcl hcm
      obtain ⟨a, d, b, e, hd, hf⟩ := first_of (P := fun d => [d] ∈ p.inlineCommentPrefixes) ⟨c, hcl, hcm⟩
      exact hn a d b e hd (.inr ((ha.resolve_left hc) a d b e hd hf))
    refine ⟨inline_without hp hx hc st, ?_⟩
    rw [inline_without hp (l := l' ++ ['\n']) _ (fun h => hc ((comment_nl _).mp h)), line_nl (bare_usual hp)]
    intro c hcl
    rcases List.mem_append.mp hcl with h | h
    · exact hx c h
    · rw [List.mem_singleton.mp h]; exact hnl
  · have hx : ∀ d ∈ l', [d] ∉ p.inlineCommentPrefixes := by
      intro d hdl hdm
      obtain ⟨a, f, b, e, hf, hfirst⟩ := first_of (P := fun d => [d] ∈ p.inlineCommentPrefixes) ⟨d, hdl, hdm⟩
      exact hn a f b e hf (.inr ((ha.resolve_left hc) a f (b ++ c :: r) (by rw [e]; simp) hf hfirst))
    refine ⟨inline_with hp hx hm hb hc st, ?_⟩
    rw [List.append_assoc, List.cons_append]
    refine inline_with hp hx hm hb (fun h => hc ((comment_nl _).mp ?_)) st
    rw [List.append_assoc, List.cons_append]
    exact h

/-- a line with only an inline comment -/
theorem inline_only (hp : Spec.Inline p) {a r : Str} {c : Char} (hb : Spec.Blank a) (hc : [c] ∈ p.inlineCommentPrefixes)
    (h : ¬ Spec.Comment p (a ++ c :: r)) (ha : Spec.Apart p (a ++ c :: r)) (st : CfgState) : cfgLine p st (a ++ c :: r) = .ok st := by
  have hx : ∀ d ∈ a, [d] ∉ p.inlineCommentPrefixes := by
    intro d hd hm
    obtain ⟨x, e, hx⟩ := hp.marks _ hm
    cases e
    rw [hb d hd] at hx
    cases hx
  have hne : a ≠ [] := by
    rintro rfl
    obtain ⟨a', w, e, _⟩ := ha [] c r rfl hc (fun _ h => nomatch h)
    simp at e
  have h1 := commentStart_at hp hx hc hne h
  unfold cfgLine
  simp only [h1, List.take_left', trimSpace_eq_nil.mpr hb, if_true, hp.empty]
  cases st.val with
  | none => rfl
  | some vs =>
    simp only
    rw [if_neg (by simp)]

theorem inline_lines (hp : Spec.Inline p) {ls ls' : List Str} (hs : Spec.Strips p ls ls') :
    (∀ l ∈ ls, Spec.Comment p l ∨ Spec.Apart p l) → ∀ st, cfgLines p st (withNewline ls) = cfgLines (bare p) st ls' := by
  induction hs with
  | nil => intro _ st; rfl
  | @line l l' ls ls' h hs ih =>
    intro ha st
    have hl := inline_line hp h (ha l (by simp)) st
    cases ls with
    | nil =>
      cases hs
      show cfgLines p st [l] = _
      rw [cfgLines, cfgLines, hl.1]
      rfl
    | cons l2 ls =>
      rw [show withNewline (l :: l2 :: ls) = (l ++ ['\n']) :: withNewline (l2 :: ls) from rfl, cfgLines, cfgLines, hl.2]
      cases cfgLine (bare p) st l' with
      | error e => rfl
      | ok st' => exact ih (fun x hx => ha x (by simp [hx])) st'
  | @only a c r ls ls' hc hb hm hs ih =>
    intro ha st
    have hap := (ha (a ++ c :: r) (by simp)).resolve_left hc
    cases ls with
    | nil =>
      cases hs
      show (cfgLine p st (a ++ c :: r)).bind _ = _
      rw [inline_only hp hb hm hc hap]
      rfl
    | cons l2 ls =>
      have hap2 : Spec.Apart p (a ++ c :: (r ++ ['\n'])) := by
        intro x d y e hd hf
        by_cases hxa : ∃ t, a = x ++ t
        · obtain ⟨t, rfl⟩ := hxa
          cases t with
          | nil =>
            rw [List.append_nil] at e hap
            have e' := List.append_cancel_left e
            injection e' with e1 _
            subst e1
            exact hap x c r rfl hd hf
          | cons z t =>
            rw [List.append_assoc] at e hap
            have e' := List.append_cancel_left e
            injection e' with e1 _
            subst e1
            exact hap x z (t ++ c :: r) (by simp) hd hf
        · exfalso
          rcases List.append_eq_append_iff.mp e with ⟨t, h1, h2⟩ | ⟨t, h1, h2⟩
          · cases t with
            | nil => exact hxa ⟨[], by simpa using h1.symm⟩
            | cons z t =>
              injection h2 with h3 _
              subst h3
              exact hf c (by rw [h1]; simp) hm
          · exact hxa ⟨t, h1⟩
      have hc2 : ¬ Spec.Comment p (a ++ c :: (r ++ ['\n'])) := fun h => hc ((comment_nl _).mp (by simpa using h))
      rw [show withNewline ((a ++ c :: r) :: l2 :: ls) = (a ++ c :: (r ++ ['\n'])) :: withNewline (l2 :: ls) by simp [withNewline], cfgLines,
        inline_only hp hb hm hc2 hap2]
      exact ih (fun x hx => ha x (by simp [hx])) st

/-- **C151** (partial) If on every line the first of the characters that begin inline comments comes directly after white space, the text says
what it says, to the parser without inline comments, when these are removed: what stands in an inline comment does not matter, and nothing else is
removed.  (The other texts: `C151_violated`, `C151_violated_start`.) -/
theorem C151_inline_partial (hp : Spec.Inline p) {text text' : Str} (hs : Spec.Strips p (split '\n' text) (split '\n' text'))
    (ha : ∀ l ∈ split '\n' text, Spec.Comment p l ∨ Spec.Apart p l) :
    parseConfig p text = parseConfig { p with inlineCommentPrefixes := [] } text' := by
  rw [show ({ p with inlineCommentPrefixes := [] } : Parser) = bare p from rfl, parse_lines (bare_usual hp)]
  unfold parseConfig readLines finish
  rw [inline_lines hp hs ha]

/-- **C151** (partial) The same, with what the text says written out: `Parse` succeeds exactly if the lines without their inline comments form a
document in which nothing is repeated, and the result is what the document says. -/
theorem C151_parse_partial (hp : Spec.Inline p) {text : Str} {ls : List Str} (cfg : Config) (hs : Spec.Strips p (split '\n' text) ls)
    (ha : ∀ l ∈ split '\n' text, Spec.Comment p l ∨ Spec.Apart p l) :
    parseConfig p text = .ok cfg ↔
      ∃ d, Spec.Document { p with inlineCommentPrefixes := [] } ls d ∧ Spec.Distinct d ∧ cfg = Spec.toConfig d := by
  refine Iff.trans (b := finish (bare p) ⟨[], 0, none, [], none⟩ ls = .ok cfg) ?_ (run_A (bare_usual hp) ls cfg)
  unfold parseConfig readLines finish
  rw [inline_lines hp hs ha]

/-! ### examples, and the texts for which it fails -/

theorem canBegin_iff (a : Str) : Spec.CanBegin a ↔ a.getLast?.all isSpace = true := by
  unfold Spec.CanBegin
  rcases List.eq_nil_or_concat a with rfl | ⟨b, c, rfl⟩
  · simp
  · simp only [List.concat_eq_append, List.append_eq_nil_iff, List.cons_ne_nil, and_false, false_or, List.getLast?_append, List.getLast?_singleton,
      Option.some_or, Option.all_some, Option.any_some]
    constructor
    · rintro ⟨b', c', e, h⟩
      rw [(List.cons.inj (List.append_inj' e rfl).2).1]
      exact h
    · exact fun h => ⟨b, c, rfl, h⟩

theorem cuts_iff (l : Str) (P : Str → Char → Prop) : (∀ a c b, l = a ++ c :: b → P a c) ↔ ∀ i, (h : i < l.length) → P (l.take i) l[i] := by
  constructor
  · intro h i hi
    exact h _ _ (l.drop (i + 1)) (by rw [← List.drop_eq_getElem_cons hi, List.take_append_drop])
  · rintro h a c b rfl
    simpa using h a.length (by simp)

instance (a : Str) : Decidable (Spec.CanBegin a) := decidable_of_iff _ (canBegin_iff a).symm
instance (a : Str) : Decidable (Spec.Blank a) := inferInstanceAs (Decidable (∀ c ∈ a, isSpace c = true))
instance (p : Parser) (l : Str) : Decidable (Spec.Comment p l) := inferInstanceAs (Decidable (∃ c ∈ p.commentPrefixes, c <+: trimSpace l))
instance (p : Parser) (l : Str) : Decidable (Spec.NoInline p l) :=
  decidable_of_iff (∀ i, (h : i < l.length) → [l[i]] ∈ p.inlineCommentPrefixes → ¬ Spec.CanBegin (l.take i))
    (cuts_iff l (fun a c => [c] ∈ p.inlineCommentPrefixes → ¬ Spec.CanBegin a)).symm
theorem apart_end (a : Str) : (∃ a' w, a = a' ++ [w] ∧ isSpace w = true) ↔ a.getLast?.any isSpace = true := by
  rcases List.eq_nil_or_concat a with rfl | ⟨b, c, rfl⟩
  · simp
  · simp only [List.concat_eq_append, List.append_eq_nil_iff, List.cons_ne_nil, and_false, false_or, List.getLast?_append, List.getLast?_singleton,
      Option.some_or, Option.all_some, Option.any_some]
    constructor
    · rintro ⟨b', c', e, h⟩
      rw [(List.cons.inj (List.append_inj' e rfl).2).1]
      exact h
    · exact fun h => ⟨b, c, rfl, h⟩

instance (p : Parser) (l : Str) : Decidable (Spec.Apart p l) :=
  decidable_of_iff (∀ i, (h : i < l.length) → [l[i]] ∈ p.inlineCommentPrefixes → (∀ d ∈ l.take i, [d] ∉ p.inlineCommentPrefixes) →
      (l.take i).getLast?.any isSpace = true) (by
    simp only [← apart_end]
    exact (cuts_iff l (fun a c => [c] ∈ p.inlineCommentPrefixes → (∀ d ∈ a, [d] ∉ p.inlineCommentPrefixes) →
      ∃ a' w, a = a' ++ [w] ∧ isSpace w = true)).symm)

/-- the parser of the examples: `;` also begins inline comments -/
def semicolons : Parser := { newConfigParser with inlineCommentPrefixes := [";".toList] }

/-- the same, with `#` alone for comment lines -/
def inlines : Parser := { semicolons with commentPrefixes := ["#".toList] }

theorem semicolons_inline : Spec.Inline semicolons := by
  refine ⟨rfl, rfl, ?_, ?_, ?_⟩
  · intro m hm
    rw [List.mem_singleton.mp hm]
    exact ⟨';', rfl, by decide⟩
  · intro d hd
    simp only [semicolons, newConfigParser, List.mem_cons, List.not_mem_nil, or_false] at hd
    rcases hd with rfl | rfl
    · exact ⟨'=', rfl⟩
    · exact ⟨':', rfl⟩
  · decide

/-- **C151** an inline comment without white space before it is removed too, and with it a part of the value: from `k = a;b` the parser reads the
value `a`, though no inline comment begins there -/
theorem C151_violated : ∃ p text, Spec.Inline p ∧ Spec.Strips p (split '\n' text) (split '\n' text) ∧
    parseConfig p text = .ok [("s".toList, [("k".toList, "a".toList)])] ∧
    parseConfig { p with inlineCommentPrefixes := [] } text = .ok [("s".toList, [("k".toList, "a;b".toList)])] := by
  refine ⟨semicolons, "[s]\nk = a;b".toList, semicolons_inline, ?_, by rfl, by rfl⟩
  rw [show split '\n' "[s]\nk = a;b".toList = ["[s]".toList, "k = a;b".toList] by decide +kernel]
  exact .line (.inr (.inl ⟨by decide +kernel, by decide +kernel, rfl⟩)) (.line (.inr (.inl ⟨by decide +kernel, by decide +kernel, rfl⟩)) .nil)

/-- **C151** an inline comment at the start of its line is not seen: if only `#` begins comment lines and `;` inline comments, the line `;k = v`
is read as an option -/
theorem C151_violated_start : ∃ p text text', Spec.Inline p ∧ Spec.Strips p (split '\n' text) (split '\n' text') ∧
    parseConfig p text = .ok [("s".toList, [(";k".toList, "v".toList)])] ∧
    parseConfig { p with inlineCommentPrefixes := [] } text' = .ok [("s".toList, [])] := by
  refine ⟨{ semicolons with commentPrefixes := ["#".toList] }, "[s]\n;k = v".toList, "[s]".toList,
    ⟨rfl, rfl, semicolons_inline.marks, semicolons_inline.delims, by decide⟩, ?_, by rfl, by rfl⟩
  rw [show split '\n' "[s]\n;k = v".toList = ["[s]".toList, [] ++ ';' :: "k = v".toList] by decide +kernel,
    show split '\n' "[s]".toList = ["[s]".toList] by decide +kernel]
  exact .line (.inr (.inl ⟨by decide +kernel, by decide +kernel, rfl⟩)) (.only (by decide +kernel) (by decide) (by decide) .nil)

/-- the hypotheses of the theorems hold of a text with a section, an option with a value of two lines, both with an inline comment, a line with only
an inline comment and a comment line; and this is what is read -/
example : ∃ text text', Spec.Inline inlines ∧ Spec.Strips inlines (split '\n' text) (split '\n' text') ∧
    (∀ l ∈ split '\n' text, Spec.Comment inlines l ∨ Spec.Apart inlines l) ∧
    text = "[s] ; one\nk = v ;two; three\n ;four\n# c;d\n  w\t; [t]".toList ∧
    parseConfig inlines text = .ok [("s".toList, [("k".toList, "v\nw".toList)])] := by
  refine ⟨"[s] ; one\nk = v ;two; three\n ;four\n# c;d\n  w\t; [t]".toList, "[s] \nk = v \n# c;d\n  w\t".toList,
    ⟨rfl, rfl, semicolons_inline.marks, semicolons_inline.delims, by decide⟩, ?_, ?_, rfl, by rfl⟩
  · rw [show split '\n' "[s] ; one\nk = v ;two; three\n ;four\n# c;d\n  w\t; [t]".toList =
        ["[s] ; one".toList, "k = v ;two; three".toList, " ".toList ++ ';' :: "four".toList, "# c;d".toList, "  w\t; [t]".toList] by decide +kernel,
      show split '\n' "[s] \nk = v \n# c;d\n  w\t".toList = ["[s] ".toList, "k = v ".toList, "# c;d".toList, "  w\t".toList] by decide +kernel]
    refine .line (.inr (.inr ⟨by decide +kernel, by decide +kernel, ';', " one".toList, rfl, by decide, by decide +kernel, by decide +kernel⟩)) ?_
    refine .line (.inr (.inr ⟨by decide +kernel, by decide +kernel, ';', "two; three".toList, rfl, by decide, by decide +kernel, by decide +kernel⟩)) ?_
    refine .only (by decide +kernel) (by decide) (by decide) ?_
    refine .line (.inl ⟨by decide +kernel, rfl⟩) ?_
    exact .line (.inr (.inr ⟨by decide +kernel, by decide +kernel, ';', " [t]".toList, rfl, by decide, by decide +kernel, by decide +kernel⟩)) .nil
  · decide +kernel

end Python
