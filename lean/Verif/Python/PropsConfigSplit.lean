import Verif.Python.ConfigSplitSpec
import Verif.Python.PropsConfig
/-! C150: configuration files in which empty lines separate options. -/
namespace Python
open Go

variable {q : Parser}

/-! ### the run -/

/-- the parser that allows empty lines in values -/
def lax (q : Parser) : Parser := { q with emptyLinesInValues := true }

theorem lax_usual (hq : Spec.Splitting q) : Spec.Usual (lax q) := ⟨hq.strict, rfl, hq.inline, hq.delims, hq.prefixes⟩

theorem gap_line (hq : Spec.Splitting q) {l : Str} (h : Spec.Gap q l) (st : CfgState) : cfgLine q st l = .ok { st with indent := 0 } := by
  have hc := commentStart_eq (lax_usual hq) l
  have e : commentStart (lax q) l = commentStart q l := rfl
  rw [e] at hc
  have hv : trimSpace (l.take (commentStart q l)) = [] := by
    by_cases hcm : Spec.Comment q l
    · rw [(hc.1 hcm).1]; rfl
    · rw [hc.2 hcm, List.take_length]
      exact trimSpace_eq_nil.mpr (h.resolve_left hcm)
  unfold cfgLine
  simp only [hv, if_true, hq.empty, Bool.false_eq_true, if_false]

theorem content_line (hq : Spec.Splitting q) {l : Str} (h : Spec.Content q l) (st : CfgState) : cfgLine q st l = cfgLine (lax q) st l := by
  have hc := (commentStart_eq (lax_usual hq) l).2 h.1
  have e : commentStart (lax q) l = commentStart q l := rfl
  have hv : trimSpace (l.take (commentStart q l)) ≠ [] := by
    rw [← e, hc, List.take_length]
    exact fun hb => h.2 (trimSpace_eq_nil.mp hb)
  unfold cfgLine
  rw [e]
  simp only [hv, if_false]
  rfl

theorem gap_or (q : Parser) (l : Str) : Spec.Gap q l ∨ Spec.Content q l := by
  by_cases h1 : Spec.Comment q l
  · exact .inl (.inl h1)
  · by_cases h2 : Spec.Blank l
    · exact .inl (.inr h2)
    · exact .inr ⟨h1, h2⟩

theorem gap_not {l : Str} (h : Spec.Gap q l) : ¬ Spec.Content q l := fun hc => h.elim hc.1 hc.2

theorem gap_nl {l : Str} (h : Spec.Gap q l) : Spec.Gap q (l ++ ['\n']) := h.imp (comment_nl l).mpr (blank_nl l).mpr

theorem content_nl {l : Str} (h : Spec.Content q l) : Spec.Content q (l ++ ['\n']) :=
  ⟨fun hc => h.1 ((comment_nl l).mp hc), fun hb => h.2 ((blank_nl l).mp hb)⟩

theorem split_line_nl (hq : Spec.Splitting q) (st : CfgState) (l : Str) : cfgLine q st (l ++ ['\n']) = cfgLine q st l := by
  rcases gap_or q l with h | h
  · rw [gap_line hq h, gap_line hq (gap_nl h)]
  · rw [content_line hq h, content_line hq (content_nl h), line_nl (lax_usual hq)]

theorem split_lines_nl (hq : Spec.Splitting q) (ls : List Str) : ∀ st, cfgLines q st (withNewline ls) = cfgLines q st ls := by
  induction ls with
  | nil => intro st; rfl
  | cons l ls ih =>
    intro st
    cases ls with
    | nil => rfl
    | cons l2 ls =>
      rw [show withNewline (l :: l2 :: ls) = (l ++ ['\n']) :: withNewline (l2 :: ls) from rfl, cfgLines, cfgLines, split_line_nl hq]
      cases cfgLine q st l with
      | error e => rfl
      | ok st' => exact ih st'

theorem split_parse_lines (hq : Spec.Splitting q) (text : Str) : parseConfig q text = finish q ⟨[], 0, none, [], none⟩ (split '\n' text) := by
  unfold parseConfig readLines
  rw [split_lines_nl hq]
  rfl

open Classical in
/-- the lines that say something -/
noncomputable def said (q : Parser) (ls : List Str) : List Str := ls.filter (fun l => decide (Spec.Content q l))

theorem said_gap {l : Str} (h : Spec.Gap q l) (ls : List Str) : said q (l :: ls) = said q ls := by
  unfold said
  rw [List.filter_cons, if_neg (by simpa using gap_not h)]

theorem said_content {l : Str} (h : Spec.Content q l) (ls : List Str) : said q (l :: ls) = l :: said q ls := by
  unfold said
  rw [List.filter_cons, if_pos (by simpa using h)]

/-- the first line of `ls` that says something is not indented -/
def After (q : Parser) (ls : List Str) : Prop := ∀ mid l b, ls = mid ++ l :: b → (∀ x ∈ mid, Spec.Gap q x) → Spec.Content q l → Spec.indent l = 0

theorem flat_tail {l : Str} {ls : List Str} (h : Spec.Flat q (l :: ls)) : Spec.Flat q ls :=
  fun a g mid x b e => h (l :: a) g mid x b (by rw [e]; rfl)

theorem flat_after {l : Str} {ls : List Str} (h : Spec.Flat q (l :: ls)) (hg : Spec.Gap q l) : After q ls :=
  fun mid x b e hm hx => h [] l mid x b (by rw [e]; rfl) hg hm hx

theorem after_tail {l : Str} {ls : List Str} (h : After q (l :: ls)) (hg : Spec.Gap q l) : After q ls :=
  fun mid x b e hm hx => h (l :: mid) x b (by rw [e]; rfl) (fun y hy => (List.mem_cons.mp hy).elim (fun e => e ▸ hg) (hm y)) hx

theorem after_head {l : Str} {ls : List Str} (h : After q (l :: ls)) (hc : Spec.Content q l) : Spec.indent l = 0 :=
  h [] l ls rfl (fun _ hx => nomatch hx) hc

theorem after_said {ls : List Str} (h : After q ls) : said q ls = [] ∨ ∃ l b, said q ls = l :: b ∧ Spec.Content q l ∧ Spec.indent l = 0 := by
  induction ls with
  | nil => exact .inl rfl
  | cons l ls ih =>
    rcases gap_or q l with hg | hc
    · rw [said_gap hg]; exact ih (after_tail h hg)
    · exact .inr ⟨l, _, said_content hc ls, hc, after_head h hc⟩

theorem flush_indent (st : CfgState) (n : Nat) : flushKV { st with indent := n } = { flushKV st with indent := n } := by
  unfold flushKV
  rcases st with ⟨c, i, s, k, v⟩
  cases v <;> cases s <;> rfl

theorem line_unindented (hq : Spec.Splitting q) {l : Str} (hc : Spec.Content q l) (h0 : Spec.indent l = 0) (st : CfgState) (n : Nat) :
    cfgLine (lax q) { st with indent := n } l = cfgLine (lax q) st l := by
  have hc' : Spec.Content (lax q) l := hc
  rw [line_content (lax_usual hq) hc', line_content (lax_usual hq) hc', h0]
  simp only [Nat.lt_irrefl, false_and, and_false, if_false]
  split
  · unfold sectionLine
    rw [flush_indent]
  · unfold optionLine
    rw [flush_indent]

theorem run_said (hq : Spec.Splitting q) (ls : List Str) : ∀ st, Spec.Flat q ls →
    finish q st ls = finish (lax q) st (said q ls) ∧ (After q ls → finish q { st with indent := 0 } ls = finish (lax q) st (said q ls)) := by
  induction ls with
  | nil =>
    intro st _
    refine ⟨rfl, fun _ => ?_⟩
    show finish q { st with indent := 0 } [] = finish (lax q) st []
    rw [finish_nil, finish_nil, flush_indent]
  | cons l ls ih =>
    intro st hf
    have hft := flat_tail hf
    rcases gap_or q l with hg | hc
    · have ha := flat_after hf hg
      rw [said_gap hg, finish_ok (gap_line hq hg st), finish_ok (gap_line hq hg _)]
      exact ⟨(ih st hft).2 ha, fun _ => (ih st hft).2 ha⟩
    · rw [said_content hc]
      have e1 := content_line hq hc st
      constructor
      · cases hl : cfgLine q st l with
        | error e => rw [finish_error hl, finish_error (e1 ▸ hl)]
        | ok st' => rw [finish_ok hl, finish_ok (e1 ▸ hl)]; exact (ih st' hft).1
      · intro ha
        have e2 : cfgLine q { st with indent := 0 } l = cfgLine (lax q) st l := by
          rw [content_line hq hc, line_unindented hq hc (after_head ha hc)]
        cases hl : cfgLine (lax q) st l with
        | error e => rw [finish_error hl, finish_error (e2.trans hl)]
        | ok st' => rw [finish_ok hl, finish_ok (e2.trans hl)]; exact (ih st' hft).1

/-! ### the two grammars -/

theorem flat_append {a ls : List Str} (h : Spec.Flat q (a ++ ls)) : Spec.Flat q ls :=
  fun a' g mid x b e => h (a ++ a') g mid x b (by rw [e, List.append_assoc])

theorem ends_fwd {k : Nat} {ls vs rest : List Str} (h : Spec.Ends q k ls vs rest) :
    Spec.Flat q ls → Spec.Continues (lax q) k (said q ls) vs (said q rest) ∧ Spec.Flat q rest := by
  induction h with
  | eof => exact fun hf => ⟨.eof, hf⟩
  | done hc hi => exact fun hf => ⟨by rw [said_content hc]; exact .done hc hi, hf⟩
  | @gap l ls hg =>
    intro hf
    refine ⟨?_, hf⟩
    rw [said_gap hg]
    rcases after_said (flat_after hf hg) with e | ⟨x, b, e, hx, h0⟩
    · rw [e]; exact .eof
    · rw [e]; exact .done hx (.inl h0)
  | more hc h0 hk _ ih =>
    intro hf
    obtain ⟨h1, h2⟩ := ih (flat_tail hf)
    exact ⟨by rw [said_content hc]; exact .more hc h0 hk h1, h2⟩

theorem ends_back {k : Nat} : ∀ (ls vs r : List Str), Spec.Flat q ls → Spec.Continues (lax q) k (said q ls) vs r →
    ∃ rest, said q rest = r ∧ Spec.Ends q k ls vs rest ∧ rest.length ≤ ls.length ∧ Spec.Flat q rest
  | [], vs, r, hf, h => by
    cases h with
    | eof => exact ⟨[], rfl, .eof, Nat.le_refl _, hf⟩
  | l :: ls, vs, r, hf, h => by
    rcases gap_or q l with hg | hc
    · refine ⟨l :: ls, ?_, ?_, Nat.le_refl _, hf⟩
      all_goals
        rw [said_gap hg] at *
        rcases after_said (flat_after hf hg) with e | ⟨x, b, e, hx, h0⟩
      · rw [e] at h ⊢; cases h; rfl
      · rw [e] at h ⊢
        cases h with
        | done _ _ => rfl
        | comment hcm _ => exact absurd hcm hx.1
        | blank hb _ => exact absurd hb hx.2
        | more _ hi _ _ => omega
      · rw [e] at h; cases h; exact .gap hg
      · rw [e] at h
        cases h with
        | done _ _ => exact .gap hg
        | comment hcm _ => exact absurd hcm hx.1
        | blank hb _ => exact absurd hb hx.2
        | more _ hi _ _ => omega
    · rw [said_content hc] at h
      cases h with
      | done _ hi => exact ⟨l :: ls, said_content hc ls, .done hc hi, Nat.le_refl _, hf⟩
      | comment hcm _ => exact absurd hcm hc.1
      | blank hb _ => exact absurd hb hc.2
      | more _ h0 hk h2 =>
        obtain ⟨rest, h3, h4, h5, h6⟩ := ends_back ls _ r (flat_tail hf) h2
        exact ⟨rest, h3, .more hc h0 hk h4, by simp; omega, h6⟩

theorem options_fwd {ls rest : List Str} {os : List (Str × List Str)} (h : Spec.SplitOptions q ls os rest) :
    Spec.Flat q ls → Spec.Options (lax q) (said q ls) os (said q rest) ∧ Spec.Flat q rest := by
  induction h with
  | eof => exact fun hf => ⟨.eof, hf⟩
  | done hc hs => exact fun hf => ⟨by rw [said_content hc]; exact .done hc hs, hf⟩
  | skip hg _ ih =>
    intro hf
    rw [said_gap hg]
    exact ih (flat_tail hf)
  | opt hc hs hk he _ ih =>
    intro hf
    obtain ⟨h1, h2⟩ := ends_fwd he (flat_tail hf)
    obtain ⟨h3, h4⟩ := ih h2
    exact ⟨by rw [said_content hc]; exact .opt hc hs hk h1 h3, h4⟩

theorem options_back : ∀ (n : Nat) (ls r : List Str) (os : List (Str × List Str)), ls.length ≤ n → Spec.Flat q ls →
    Spec.Options (lax q) (said q ls) os r →
    ∃ rest, said q rest = r ∧ Spec.SplitOptions q ls os rest ∧ rest.length ≤ ls.length ∧ Spec.Flat q rest := by
  intro n
  induction n with
  | zero =>
    intro ls r os hn hf h
    cases ls with
    | nil => cases h with | eof => exact ⟨[], rfl, .eof, Nat.le_refl _, hf⟩
    | cons => simp at hn
  | succ n ih =>
    intro ls r os hn hf h
    cases ls with
    | nil => cases h with | eof => exact ⟨[], rfl, .eof, Nat.le_refl _, hf⟩
    | cons l ls =>
      have hn' : ls.length ≤ n := by simpa using hn
      rcases gap_or q l with hg | hc
      · rw [said_gap hg] at h
        obtain ⟨rest, h1, h2, h3, h4⟩ := ih ls r os hn' (flat_tail hf) h
        exact ⟨rest, h1, .skip hg h2, by simp; omega, h4⟩
      · rw [said_content hc] at h
        cases h with
        | done _ hs => exact ⟨l :: ls, said_content hc ls, .done hc hs, Nat.le_refl _, hf⟩
        | skip hg _ => exact absurd hc (gap_not hg)
        | opt _ hs hk he ho =>
          obtain ⟨mid, h1, h2, h3, h4⟩ := ends_back ls _ _ (flat_tail hf) he
          rw [← h1] at ho
          obtain ⟨rest, h5, h6, h7, h8⟩ := ih mid r _ (by omega) h4 ho
          exact ⟨rest, h5, .opt hc hs hk h2 h6, by simp; omega, h8⟩

theorem document_iff : ∀ (n : Nat) (ls : List Str) (d : List (Str × List (Str × List Str))), ls.length ≤ n → Spec.Flat q ls →
    (Spec.SplitDocument q ls d ↔ Spec.Document (lax q) (said q ls) d) := by
  intro n ls d hn hf
  constructor
  · intro h
    clear hn
    induction h with
    | eof => exact .eof
    | skip hg _ ih => rw [said_gap hg]; exact ih (flat_tail hf)
    | sect hc hs ho _ ih =>
      obtain ⟨h1, h2⟩ := options_fwd ho (flat_tail hf)
      rw [said_content hc]
      exact .sect hc hs h1 (ih h2)
  · induction n generalizing ls d with
    | zero =>
      intro h
      cases ls with
      | nil => cases h with | eof => exact .eof
      | cons => simp at hn
    | succ n ih =>
      intro h
      cases ls with
      | nil => cases h with | eof => exact .eof
      | cons l ls =>
        have hn' : ls.length ≤ n := by simpa using hn
        rcases gap_or q l with hg | hc
        · rw [said_gap hg] at h
          exact .skip hg (ih ls d hn' (flat_tail hf) h)
        · rw [said_content hc] at h
          cases h with
          | skip hg _ => exact absurd hc (gap_not hg)
          | sect _ hs ho hd =>
            obtain ⟨rest, h1, h2, h3, h4⟩ := options_back n ls _ _ hn' (flat_tail hf) ho
            rw [← h1] at hd
            exact .sect hc hs h2 (ih rest _ (by omega) h4 hd)

/-- **C150** (partial): with a strict parser that does not allow empty lines in values, for a text in which no line that follows an empty line
or a comment is indented, `Parse` succeeds with a configuration exactly when the lines form a document in which values end at empty lines and
nothing is repeated, and the configuration is the one the document describes.  Missing: texts with indented lines after empty ones, see
`C150_violated`. -/
theorem C150_parse_partial (hq : Spec.Splitting q) (text : Str) (hf : Spec.Flat q (split '\n' text)) (cfg : Config) :
    parseConfig q text = .ok cfg ↔ ∃ d, Spec.SplitDocument q (split '\n' text) d ∧ Spec.Distinct d ∧ cfg = Spec.toConfig d := by
  rw [split_parse_lines hq, (run_said hq _ _ hf).1, run_A (lax_usual hq)]
  simp only [document_iff _ _ _ (Nat.le_refl _) hf]

/-- the parser of `NewConfigParser` with `EmptyLinesInValues` switched off -/
def exSplitting : Parser := { newConfigParser with emptyLinesInValues := false }

theorem exSplitting_splitting : Spec.Splitting exSplitting :=
  ⟨rfl, rfl, rfl, by intro d hd; simp [exSplitting, newConfigParser] at hd; rcases hd with rfl | rfl <;> exact ⟨_, rfl⟩,
    by intro c hc; simp [exSplitting, newConfigParser] at hc; rcases hc with rfl | rfl <;> simp⟩

theorem content_of {l : Str} (h1 : q.commentPrefixes.all (fun c => !c.isPrefixOf (trimSpace l)) = true) (h2 : l.all isSpace = false) : Spec.Content q l := by
  constructor
  · rintro ⟨c, hc, hp⟩
    have := List.all_eq_true.mp h1 c hc
    rw [List.isPrefixOf_iff_prefix.mpr hp] at this
    cases this
  · intro hb
    rw [List.all_eq_true.mpr hb] at h2
    cases h2

theorem no_header {l : Str} (h : (trimSpace l).head? ≠ some '[') (s : Str) : ¬ Spec.SectionHeader l s := by
  intro hs
  rw [Spec.SectionHeader] at hs
  rw [hs] at h
  exact h rfl

/-- a section with an option, an empty line, and an option that is indented -/
def exSplitText : Str := "[s]\nk = a\n\n  j = b".toList

theorem exSplit_document : Spec.SplitDocument exSplitting (split '\n' exSplitText)
    [("s".toList, [("k".toList, ["a".toList]), ("j".toList, ["b".toList])])] := by
  rw [show split '\n' exSplitText = ["[s]".toList, "k = a".toList, [], "  j = b".toList] by decide +kernel]
  refine .sect (content_of (by decide) (by decide)) (s := "s".toList) rfl (rest := []) ?_ .eof
  refine .opt (content_of (by decide) (by decide)) (no_header (by decide)) ⟨"k ".toList, '=', " a".toList, rfl, by decide, by decide, by decide, by decide⟩
    (.gap (.inr (fun _ h => nomatch h))) ?_
  refine .skip (.inr (fun _ h => nomatch h)) ?_
  exact .opt (content_of (by decide) (by decide)) (no_header (by decide)) ⟨"j ".toList, '=', " b".toList, by decide, by decide, by decide, by decide, by decide⟩
    .eof .eof

/-- The code violates C150: of an indented option that follows an empty line, it makes a part of the value of the option before
(configparser.go:99 sets the indentation of the current option to 0, which every indented line exceeds; Python's configparser sets it to the
largest number).  Also without `EmptyLinesInValues` the empty line does not split the keys. -/
theorem C150_violated : ∃ (q : Parser) (text : Str) (d : List (Str × List (Str × List Str))), Spec.Splitting q ∧
    Spec.SplitDocument q (split '\n' text) d ∧ Spec.Distinct d ∧
    Spec.toConfig d = [("s".toList, [("k".toList, "a".toList), ("j".toList, "b".toList)])] ∧
    parseConfig q text = .ok [("s".toList, [("k".toList, "a\nj = b".toList)])] :=
  ⟨exSplitting, exSplitText, _, exSplitting_splitting, exSplit_document, ⟨by decide, by decide⟩, by decide +kernel, by decide +kernel⟩

/-- options that are separated by empty lines and comments, with values of two lines and indented options -/
example : Spec.Splitting exSplitting ∧ parseConfig exSplitting "[s]\n  k = a\n   b\n  l = c\n\nj = d\n# no\n\nm = e\n".toList =
    .ok [("s".toList, [("k".toList, "a\nb".toList), ("l".toList, "c".toList), ("j".toList, "d".toList), ("m".toList, "e".toList)])] :=
  ⟨exSplitting_splitting, by decide +kernel⟩

/-- the first lines of it meet the condition of `C150_parse_partial`, the text of `C150_violated` does not -/
example : Spec.Flat exSplitting (split '\n' "[s]\n  k = a\n   b\n\nj = d".toList) ∧ ¬ Spec.Flat exSplitting (split '\n' exSplitText) := by
  constructor
  · rw [show split '\n' "[s]\n  k = a\n   b\n\nj = d".toList = ["[s]".toList, "  k = a".toList, "   b".toList, [], "j = d".toList] by decide +kernel]
    intro a g mid l b e hg _ _
    have n1 : Spec.Content exSplitting "[s]".toList := content_of (by decide) (by decide)
    have n2 : Spec.Content exSplitting "  k = a".toList := content_of (by decide) (by decide)
    have n3 : Spec.Content exSplitting "   b".toList := content_of (by decide) (by decide)
    match a, e with
    | [], e => injection e with e _; exact absurd (e ▸ n1) (gap_not hg)
    | [_], e => injection e with _ e; injection e with e _; exact absurd (e ▸ n2) (gap_not hg)
    | [_, _], e => injection e with _ e; injection e with _ e; injection e with e _; exact absurd (e ▸ n3) (gap_not hg)
    | [_, _, _], e =>
      injection e with _ e; injection e with _ e; injection e with _ e; injection e with _ e
      cases mid with
      | nil => injection e with e _; rw [← e]; decide
      | cons x mid => cases mid <;> simp at e
    | _ :: _ :: _ :: _ :: a, e => 
      injection e with _ e; injection e with _ e; injection e with _ e; injection e with _ e
      cases a with
      | nil => cases mid <;> simp at e
      | cons x a => cases a <;> cases mid <;> simp at e
  · intro h
    have := h ["[s]".toList, "k = a".toList] [] [] "  j = b".toList [] (by decide +kernel) (.inr (fun _ h => nomatch h)) (fun _ h => nomatch h)
      (content_of (by decide) (by decide))
    exact absurd this (by decide)

end Python
