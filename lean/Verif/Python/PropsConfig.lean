import Verif.Python.ConfigRun
import Verif.Go.Strings
/-! C75: what the configuration parser accepts and what it gives. -/
namespace Python
open Go

variable {p : Parser}

/-! a newline at the end of a line does not matter -/

theorem takeWhile_append_of {α : Type} {f : α → Bool} {l m : List α} (h : ∃ c ∈ l, f c = false) : (l ++ m).takeWhile f = l.takeWhile f := by
  induction l with
  | nil => obtain ⟨c, hc, _⟩ := h; cases hc
  | cons a l ih =>
    rw [List.cons_append, List.takeWhile_cons, List.takeWhile_cons]
    split
    · rename_i ha
      rw [ih]
      obtain ⟨c, hc, hf⟩ := h
      rcases List.mem_cons.mp hc with rfl | hc
      · rw [ha] at hf; cases hf
      · exact ⟨c, hc, hf⟩
    · rfl

theorem dropWhile_append_of {α : Type} {f : α → Bool} {l m : List α} (h : ∃ c ∈ l, f c = false) :
    (l ++ m).dropWhile f = l.dropWhile f ++ m := by
  induction l with
  | nil => obtain ⟨c, hc, _⟩ := h; cases hc
  | cons a l ih =>
    rw [List.cons_append, List.dropWhile_cons, List.dropWhile_cons]
    split
    · rename_i ha
      rw [ih]
      obtain ⟨c, hc, hf⟩ := h
      rcases List.mem_cons.mp hc with rfl | hc
      · rw [ha] at hf; cases hf
      · exact ⟨c, hc, hf⟩
    · rfl

theorem not_blank {l : Str} (h : ¬ Spec.Blank l) : ∃ c ∈ l, isSpace c = false := by
  refine Classical.byContradiction fun hn => h fun c hc => ?_
  cases hs : isSpace c with
  | true => rfl
  | false => exact absurd ⟨c, hc, hs⟩ hn

theorem blank_nl (l : Str) : Spec.Blank (l ++ ['\n']) ↔ Spec.Blank l := by
  unfold Spec.Blank
  constructor
  · intro h c hc; exact h c (by simp [hc])
  · intro h c hc
    rcases List.mem_append.mp hc with hc | hc
    · exact h c hc
    · rw [List.mem_singleton] at hc; subst hc; decide

theorem trim_nl (l : Str) : trimSpace (l ++ ['\n']) = trimSpace l := by
  by_cases hb : Spec.Blank l
  · rw [trimSpace_eq_nil.mpr hb, trimSpace_eq_nil.mpr ((blank_nl l).mpr hb)]
  · unfold trimSpace
    rw [dropWhile_append_of (not_blank hb), List.reverse_append]
    rw [show (['\n'] : Str).reverse ++ (l.dropWhile isSpace).reverse = '\n' :: (l.dropWhile isSpace).reverse from rfl,
      List.dropWhile_cons, if_pos (by decide)]

theorem indent_nl {l : Str} (h : ¬ Spec.Blank l) : Spec.indent (l ++ ['\n']) = Spec.indent l := by
  unfold Spec.indent
  rw [takeWhile_append_of (not_blank h)]

theorem comment_nl (l : Str) : Spec.Comment p (l ++ ['\n']) ↔ Spec.Comment p l := by
  unfold Spec.Comment
  rw [trim_nl]

theorem line_nl (hu : Spec.Usual p) (st : CfgState) (l : Str) : cfgLine p st (l ++ ['\n']) = cfgLine p st l := by
  by_cases hc : Spec.Comment p l
  · rw [line_comment hu hc, line_comment hu ((comment_nl l).mpr hc)]
  have hc' : ¬ Spec.Comment p (l ++ ['\n']) := fun h => hc ((comment_nl l).mp h)
  by_cases hb : Spec.Blank l
  · rw [line_blank hu hb hc, line_blank hu ((blank_nl l).mpr hb) hc']
  · rw [line_content hu ⟨hc, hb⟩, line_content hu ⟨hc', fun h => hb ((blank_nl l).mp h)⟩, trim_nl, indent_nl hb]

theorem lines_nl (hu : Spec.Usual p) (ls : List Str) : ∀ st, cfgLines p st (withNewline ls) = cfgLines p st ls := by
  induction ls with
  | nil => intro st; rfl
  | cons l ls ih =>
    intro st
    cases ls with
    | nil => rfl
    | cons l2 ls =>
      rw [show withNewline (l :: l2 :: ls) = (l ++ ['\n']) :: withNewline (l2 :: ls) from rfl, cfgLines, cfgLines, line_nl hu]
      cases cfgLine p st l with
      | error e => rfl
      | ok st' => exact ih st'

theorem parse_lines (hu : Spec.Usual p) (text : Str) : parseConfig p text = finish p ⟨[], 0, none, [], none⟩ (split '\n' text) := by
  unfold parseConfig readLines
  rw [lines_nl hu]
  rfl

/-- **C75** `Parse` succeeds with a configuration exactly when the lines of the text form a document in which no section and no
option of a section is repeated, and the configuration is the one the document describes.  Nothing is lost or invented, and every
other text is an error. -/
theorem C75_parse (hu : Spec.Usual p) (text : Str) (cfg : Config) :
    parseConfig p text = .ok cfg ↔ ∃ d, Spec.Document p (split '\n' text) d ∧ Spec.Distinct d ∧ cfg = Spec.toConfig d := by
  rw [parse_lines hu]
  exact run_A hu _ cfg

/-- **C75** a line that says something, before any section header, is an error -/
theorem C75_before_section (hu : Spec.Usual p) {text : Str} {before after : List Str} {l : Str}
    (ht : split '\n' text = before ++ l :: after) (hb : ∀ x ∈ before, Spec.Comment p x ∨ Spec.Blank x)
    (hl : Spec.Content p l) (hh : ∀ s, ¬ Spec.SectionHeader l s) : parseConfig p text = .error () := by
  cases hr : parseConfig p text with
  | error e => rfl
  | ok cfg =>
    exfalso
    obtain ⟨d, hd, _⟩ := (C75_parse hu text cfg).mp hr
    rw [ht] at hd
    clear ht hr
    induction before with
    | nil =>
      cases hd with
      | skip h1 _ => exact comment_not_content h1 hl
      | sect _ h1 _ _ => exact hh _ h1
    | cons b before ih =>
      exact ih (fun x hx => hb x (by simp [hx])) ((document_skip (hb b (by simp))).mp hd)

/-- **C75** comment lines have no effect, wherever they are: also inside of a value -/
theorem C75_comments (hu : Spec.Usual p) {before after : List Str} {c : Str} (hc : Spec.Comment p c)
    (hn : ∀ l ∈ before ++ c :: after, '\n' ∉ l) (hne : before ++ after ≠ []) :
    parseConfig p (join ['\n'] (before ++ c :: after)) = parseConfig p (join ['\n'] (before ++ after)) := by
  have hn2 : ∀ l ∈ before ++ after, '\n' ∉ l := by
    intro l hl
    refine hn l ?_
    rcases List.mem_append.mp hl with h | h <;> simp [h]
  rw [parse_lines hu, parse_lines hu, split_join (by simp) hn, split_join hne hn2]
  have : ∀ (before : List Str) st, cfgLines p st (before ++ c :: after) = cfgLines p st (before ++ after) := by
    intro before
    induction before with
    | nil => intro st; rw [List.nil_append, List.nil_append, cfgLines, line_comment hu hc]; rfl
    | cons b before ih =>
      intro st
      rw [List.cons_append, List.cons_append, cfgLines, cfgLines]
      cases cfgLine p st b with
      | error e => rfl
      | ok st' => exact ih st'
  unfold finish
  rw [this]

/-- the parser as made by `NewConfigParser`, and as changed for entry points -/
theorem usual_new : Spec.Usual newConfigParser := by
  refine ⟨rfl, rfl, rfl, ?_, ?_⟩
  · intro d hd
    simp only [newConfigParser, List.mem_cons, List.not_mem_nil, or_false] at hd
    rcases hd with rfl | rfl
    · exact ⟨'=', rfl⟩
    · exact ⟨':', rfl⟩
  · intro c hc
    simp only [newConfigParser, List.mem_cons, List.not_mem_nil, or_false] at hc
    rcases hc with rfl | rfl <;> decide

def sampleText : Str := "# top\n[a]\nK: v = 1\n  more\n# note\n\n[b]\nx=\n".toList

/-- **C75** what the parser of `NewConfigParser` takes for a comment and for an option: a line that begins with `#` or `;`, and a line with
`=` or `:`, the first of which ends the key, whose letters become lower case -/
theorem C75_usual (l : Str) :
    (Spec.Comment newConfigParser l ↔ ∃ r, trimSpace l = '#' :: r ∨ trimSpace l = ';' :: r) ∧
    ∀ k v, Spec.KeyValue newConfigParser l k v ↔ ∃ a c b, trimSpace l = a ++ c :: b ∧ (c = '=' ∨ c = ':') ∧ '=' ∉ a ∧ ':' ∉ a ∧
      k = toLower (trimSpace a) ∧ v = trimSpace b := by
  refine ⟨?_, ?_⟩
  · unfold Spec.Comment newConfigParser
    constructor
    · rintro ⟨c, hc, r, hr⟩
      simp only [List.mem_cons, List.not_mem_nil, or_false] at hc
      rcases hc with rfl | rfl
      · exact ⟨r, Or.inl hr.symm⟩
      · exact ⟨r, Or.inr hr.symm⟩
    · rintro ⟨r, hr | hr⟩
      · exact ⟨"#".toList, by simp, r, hr.symm⟩
      · exact ⟨";".toList, by simp, r, hr.symm⟩
  · intro k v
    have key : ∀ c : Char, [c] ∈ newConfigParser.delimiters ↔ c = '=' ∨ c = ':' := by
      intro c
      simp [newConfigParser]
    unfold Spec.KeyValue
    constructor
    · rintro ⟨a, c, b, h1, h2, h3, h4, h5⟩
      exact ⟨a, c, b, h1, (key c).mp h2, fun h => h3 _ h ((key _).mpr (Or.inl rfl)), fun h => h3 _ h ((key _).mpr (Or.inr rfl)), h4, h5⟩
    · rintro ⟨a, c, b, h1, h2, h3, h3', h4, h5⟩
      refine ⟨a, c, b, h1, (key c).mpr h2, ?_, h4, h5⟩
      intro x hx hd
      rcases (key x).mp hd with rfl | rfl
      · exact h3 hx
      · exact h3' hx

example : parseConfig newConfigParser sampleText =
    .ok [("a".toList, [("k".toList, "v = 1\nmore".toList)]), ("b".toList, [("x".toList, [])])] := by decide +kernel

example : parseConfig newConfigParser "k = 1\n[a]\n".toList = .error () := by decide +kernel
example : parseConfig newConfigParser "[a]\nk = 1\nK = 2\n".toList = .error () := by decide +kernel
example : parseConfig newConfigParser "[a]\n[a]\n".toList = .error () := by decide +kernel

/-- the sample has a document, by the theorem -/
example : ∃ d, Spec.Document newConfigParser (split '\n' sampleText) d ∧ Spec.Distinct d ∧
    Spec.toConfig d = [("a".toList, [("k".toList, "v = 1\nmore".toList)]), ("b".toList, [("x".toList, [])])] := by
  obtain ⟨d, h1, h2, h3⟩ := (C75_parse usual_new sampleText _).mp
    (show parseConfig _ _ = .ok [("a".toList, [("k".toList, "v = 1\nmore".toList)]), ("b".toList, [("x".toList, [])])] by decide +kernel)
  exact ⟨d, h1, h2, h3.symm⟩

/-- a comment line as `C75_comments` asks for -/
example : Spec.Comment newConfigParser "  # note".toList :=
  ⟨"#".toList, by decide, List.isPrefixOf_iff_prefix.mp (by decide +kernel)⟩

/-- a line as `C75_before_section` asks for -/
example : Spec.Content newConfigParser "k = 1".toList ∧ ∀ s, ¬ Spec.SectionHeader "k = 1".toList s := by
  refine ⟨⟨?_, ?_⟩, ?_⟩
  · rintro ⟨c, hc, hp⟩
    simp only [newConfigParser, List.mem_cons, List.not_mem_nil, or_false] at hc
    rcases hc with rfl | rfl
    · exact absurd (List.isPrefixOf_iff_prefix.mpr hp) (by decide +kernel)
    · exact absurd (List.isPrefixOf_iff_prefix.mpr hp) (by decide +kernel)
  · intro h; exact absurd (h 'k' (by decide)) (by decide)
  · intro s h
    have : trimSpace "k = 1".toList = "k = 1".toList := by decide +kernel
    unfold Spec.SectionHeader at h
    rw [this] at h
    have h2 := congrArg List.head? h
    rw [List.head?_cons] at h2
    exact absurd h2 (by decide +kernel)

end Python
