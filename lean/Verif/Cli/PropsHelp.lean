import Verif.Cli.Help
import Verif.Cli.PropsWidth
import Verif.Cli.PropsNow
/-! C144: the help text says everything at every width. -/
namespace Cli
open Spec

namespace Spec
/-- the bytes of an ASCII text -/
def text (s : String) : List UInt8 := s.toList.map fun c => UInt8.ofNat c.toNat

/-- no vertical tab, form feed or carriage return -/
def Plain (s : List UInt8) : Prop := ∀ c ∈ s, c ≠ 11 ∧ c ≠ 12 ∧ c ≠ 13

/-- the texts that are trimmed at their end are plain -/
structure PlainHelp (d : HelpData) : Prop where
  long : Plain d.long
  localFlags : ∀ f ∈ d.localFlags, Plain f.1 ∧ Plain f.2
  inheritedFlags : ∀ f ∈ d.inheritedFlags, Plain f.1 ∧ Plain f.2

/-- what is said if `b` -/
def when (b : Bool) (l : List (List UInt8)) : List (List UInt8) := if b then l else []

/-- the words of a help text, in order -/
def helpWords (d : HelpData) : List (List UInt8) :=
  words (text "Usage:") ++ words d.useLine ++ words d.short ++ words d.long ++
  when d.aliases (words (text "Aliases:") ++ words d.nameAndAliases) ++
  when (d.example_ ≠ []) (words (text "Examples:") ++ words d.example_) ++
  when d.hasSub (words (text "Available Commands:") ++
    (d.cmds.filter (fun c => c.available ∨ c.name = text "help")).flatMap (fun c => words c.name ++ words c.short)) ++
  when d.hasLocal (words (text "Flags:") ++ d.localFlags.flatMap (fun f => words f.1 ++ words f.2)) ++
  when d.hasInherited (words (text "Global Flags:") ++ d.inheritedFlags.flatMap (fun f => words f.1 ++ words f.2)) ++
  when d.hasTopics (words (text "Additional help topics:") ++
    (d.cmds.filter (·.topic)).flatMap (fun c => words c.path ++ words c.short)) ++
  when d.hasSub (words (text "Use \"" ++ d.path ++ text " [command] --help\" for more information about a command."))
end Spec

theorem wordsFrom_mem (s : Bytes) : ∀ cur : Bytes, (∀ c ∈ cur, blank c = false) → ∀ c, blank c = false →
    ((c ∈ cur ∨ c ∈ s) ↔ ∃ wd ∈ wordsFrom cur s, c ∈ wd) := by
  induction s with
  | nil =>
    intro cur _ c _
    rw [wordsFrom]
    split
    · rename_i h; simp [h]
    · simp
  | cons d s ih =>
    intro cur hcur c hc
    rw [wordsFrom]
    split
    · rename_i hd
      have hne : c ≠ d := by rintro rfl; rw [hc] at hd; cases hd
      have := ih [] (by simp) c hc
      simp only [List.not_mem_nil, false_or] at this
      simp only [List.mem_cons, hne, false_or, List.mem_append, or_and_right, exists_or, ← this]
      split
      · rename_i h; simp [h]
      · simp
    · rename_i hd
      have := ih (cur ++ [d]) (by
        intro e he
        rcases List.mem_append.mp he with h | h
        · exact hcur e h
        · rw [List.mem_singleton.mp h]; exact Bool.eq_false_iff.mpr hd) c hc
      rw [← this]
      simp [or_assoc]

theorem words_mem (s : Bytes) {c : UInt8} (hc : blank c = false) : c ∈ s ↔ ∃ wd ∈ words s, c ∈ wd := by
  have := wordsFrom_mem s [] (by simp) c hc
  simpa [words] using this

theorem plain_of_words {s t : Bytes} (h : words t = words s) (hs : Plain s) : Plain t := by
  intro c hc
  have key : ∀ d : UInt8, blank d = false → d ∈ t → d ∈ s := fun d hd ht => by
    rw [words_mem _ hd, ← h, ← words_mem _ hd]; exact ht
  refine ⟨?_, ?_, ?_⟩
  · rintro rfl; exact (hs 11 (key 11 (by decide) hc)).1 rfl
  · rintro rfl; exact (hs 12 (key 12 (by decide) hc)).2.1 rfl
  · rintro rfl; exact (hs 13 (key 13 (by decide) hc)).2.2 rfl

theorem wordsFrom_blanks {b : Bytes} (hb : ∀ c ∈ b, blank c = true) : ∀ (a : Bytes) (cur : Bytes), wordsFrom cur (a ++ b) = wordsFrom cur a := by
  induction b with
  | nil => simp
  | cons c b ih =>
    intro a cur
    rw [wordsFrom_blank c (hb c (by simp))]
    have := ih (fun d hd => hb d (by simp [hd])) [] []
    rw [List.nil_append] at this
    rw [this]
    simp [wordsFrom]

theorem takeWhile_mem {f : UInt8 → Bool} {s : Bytes} {c : UInt8} (h : c ∈ s.takeWhile f) : f c = true := by
  induction s with
  | nil => cases h
  | cons d s ih =>
    rw [List.takeWhile_cons] at h
    split at h
    · rcases List.mem_cons.mp h with rfl | h
      · assumption
      · exact ih h
    · cases h

theorem trimEnd_split (s : Bytes) : ∃ b, s = trimEnd s ++ b ∧ ∀ c ∈ b, asciiSpace c = true := by
  refine ⟨(s.reverse.takeWhile asciiSpace).reverse, ?_, ?_⟩
  · unfold trimEnd
    rw [← List.reverse_append, List.takeWhile_append_dropWhile, List.reverse_reverse]
  · intro c hc
    rw [List.mem_reverse] at hc
    exact takeWhile_mem hc

theorem words_trimEnd {s : Bytes} (h : Plain s) : words (trimEnd s) = words s := by
  obtain ⟨b, e, hb⟩ := trimEnd_split s
  conv => rhs; rw [e]
  refine (wordsFrom_blanks ?_ _ _).symm
  intro c hc
  have h1 := hb c hc
  have h2 := h c (by rw [e]; exact List.mem_append_right _ hc)
  revert h1 h2
  unfold asciiSpace blank
  obtain ⟨⟨⟨n, hn⟩⟩⟩ := c
  simp only [Bool.or_eq_true, Bool.and_eq_true, decide_eq_true_eq, ne_eq, UInt8.le_iff_toNat_le, ← UInt8.toNat_inj]
  simp
  omega

/-- the parts print a text that begins with a blank and has these words -/
def Block (os : List Out) (ws : List Bytes) : Prop :=
  ∃ b, cat os = .ret b ∧ (b = [] ∨ ∃ c t, b = c :: t ∧ blank c = true) ∧ words b = ws

theorem cat_append {os os' : List Out} {a b : Bytes} (h : cat os = .ret a) (h' : cat os' = .ret b) : cat (os ++ os') = .ret (a ++ b) := by
  induction os generalizing a with
  | nil => cases h; exact h'
  | cons o os ih =>
    cases o with
    | ret x =>
      rw [cat] at h
      cases h1 : cat os with
      | ret y =>
        rw [h1] at h
        cases h
        rw [List.cons_append, cat, ih h1, List.append_assoc]
      | panic => rw [h1] at h; cases h
      | loop => rw [h1] at h; cases h
    | panic => cases h
    | loop => cases h

theorem words_begin {a b : Bytes} (hb : b = [] ∨ ∃ c t, b = c :: t ∧ blank c = true) : words (a ++ b) = words a ++ words b := by
  rcases hb with rfl | ⟨c, t, rfl, hc⟩
  · simp [words, wordsFrom]
  · rw [words_blank c hc]
    congr 1
    have := words_blank c hc [] t
    rw [List.nil_append] at this
    rw [this]
    simp [words, wordsFrom]

theorem Block.append {os os' : List Out} {ws ws' : List Bytes} (h : Block os ws) (h' : Block os' ws') : Block (os ++ os') (ws ++ ws') := by
  obtain ⟨a, h1, h2, rfl⟩ := h
  obtain ⟨b, h3, h4, rfl⟩ := h'
  refine ⟨a ++ b, cat_append h1 h3, ?_, words_begin h4⟩
  rcases h2 with rfl | ⟨c, t, rfl, hc⟩
  · exact h4
  · exact Or.inr ⟨c, t ++ b, rfl, hc⟩

theorem Block.nil : Block [] [] := ⟨[], rfl, Or.inl rfl, rfl⟩

theorem Block.ite {b : Prop} [Decidable b] {os : List Out} {ws : List Bytes} (h : b → Block os ws) :
    Block (if b then os else []) (when (decide b) ws) := by
  unfold when
  by_cases hb : b
  · simpa [hb] using h hb
  · simpa [hb] using Block.nil

theorem Block.bool {b : Bool} {os : List Out} {ws : List Bytes} (h : Block os ws) : Block (if b = true then os else []) (when b ws) := by
  cases b
  · exact Block.nil
  · exact h

theorem words_cons_nl (s : Bytes) : words (nl :: s) = words s := by
  have := words_blank nl (by decide) [] s
  rw [List.nil_append] at this
  rw [this]
  simp [words, wordsFrom]

theorem Block.one {s : Bytes} {ws : List Bytes} (h : words s = ws) : Block [.ret (nl :: s)] ws :=
  ⟨nl :: s, by simp [cat], Or.inr ⟨nl, s, rfl, by decide⟩, by rw [words_cons_nl, h]⟩

theorem wrapIndent_spec (i : Nat) (w : Int) (s : Bytes) : ∃ out, wrapIndent i w s = .ret out ∧ words out = words s :=
  C80_words (by omega) s (Nat.le_refl _)

theorem wrapText_spec (w : Int) (s : Bytes) : ∃ out, wrapText w s = .ret out ∧ words out = words s :=
  C80_words (by omega) s (Nat.le_refl _)

theorem words_snoc_sp (a s : Bytes) : words (a ++ [sp] ++ s) = words a ++ words s := by
  rw [List.append_assoc]; exact words_blank sp (by decide) a s

theorem words_snoc_spaces (a : Bytes) (n : Nat) (s : Bytes) : words (a ++ spaces (n + 1) ++ s) = words a ++ words s := by
  rw [List.append_assoc, spaces, List.replicate_succ, List.cons_append, words_blank sp (by decide)]
  exact congrArg _ (words_spaces n s)

theorem cmdLine_block (w : Int) (name : Bytes) (pad : Nat) (c : HelpCmd) : Block (cmdLine w name pad c) (words name ++ words c.short) := by
  obtain ⟨out, h, hw⟩ := wrapIndent_spec (c.namePadding + 5) w c.short
  refine ⟨nl :: (lit "  " ++ rpad name pad ++ lit "   " ++ out), by simp [cmdLine, cat, h], Or.inr ⟨_, _, rfl, by decide⟩, ?_⟩
  rw [words_cons_nl]
  have e : lit "  " ++ rpad name pad ++ lit "   " ++ out = spaces 2 ++ (name ++ spaces (pad - name.length + 2 + 1) ++ out) := by
    have h2 : lit "  " = spaces 2 := by decide
    have h3 : lit "   " = spaces 3 := by decide
    rw [h2, h3, rpad, show pad - name.length + 2 + 1 = (pad - name.length) + 3 from rfl]
    simp only [spaces, List.append_assoc, ← List.replicate_append_replicate]
  rw [e, words_spaces, words_snoc_spaces, hw]

theorem flatMap_block {α : Type} (l : List α) (f : α → List Out) (q : α → Bool) (g : α → List Bytes)
    (h : ∀ a ∈ l, Block (if q a then f a else []) (if q a then g a else [])) :
    Block (l.flatMap (fun a => if q a then f a else [])) ((l.filter q).flatMap g) := by
  induction l with
  | nil => exact Block.nil
  | cons a l ih =>
    have h1 := (h a (by simp)).append (ih (fun b hb => h b (by simp [hb])))
    rw [List.flatMap_cons]
    by_cases hq : q a = true
    · rw [List.filter_cons_of_pos hq, List.flatMap_cons]
      simpa [hq] using h1
    · rw [List.filter_cons_of_neg hq]
      simpa [hq] using h1

/-- the lines of the flags; `m` is the column of the descriptions -/
theorem flagLines (w : Int) (m : Nat) (fs : List (Bytes × Bytes)) :
    ∃ out, cat (fs.flatMap fun f => [.ret (f.1 ++ [sp] ++ spaces (m - f.1.length) ++ [sp]), wrapIndent (m + 2) w f.2, .ret [nl]]) = .ret out ∧
      words out = fs.flatMap (fun f => words f.1 ++ words f.2) := by
  induction fs with
  | nil => exact ⟨[], rfl, rfl⟩
  | cons f fs ih =>
    obtain ⟨rest, h1, h2⟩ := ih
    obtain ⟨out, h, hw⟩ := wrapIndent_spec (m + 2) w f.2
    rw [List.flatMap_cons]
    refine ⟨_, cat_append (a := f.1 ++ [sp] ++ spaces (m - f.1.length) ++ [sp] ++ (out ++ [nl])) (by simp [cat, h]) h1, ?_⟩
    rw [List.flatMap_cons, ← h2, ← hw]
    rw [List.append_assoc, List.append_assoc out]
    rw [words_snoc_sp, words_snoc_sp]
    have := words_spaces (m - f.1.length) []
    rw [List.append_nil] at this
    rw [this]
    have hb := words_blank nl (by decide) out rest
    rw [List.singleton_append, hb]
    simp [words, wordsFrom]

theorem plain_flags {fs : List (Bytes × Bytes)} (h : ∀ f ∈ fs, Plain f.1 ∧ Plain f.2) {out : Bytes}
    (hw : words out = fs.flatMap (fun f => words f.1 ++ words f.2)) : Plain out := by
  intro c hc
  have key : ∀ d : UInt8, blank d = false → d ∈ out → ∃ f ∈ fs, d ∈ f.1 ∨ d ∈ f.2 := by
    intro d hd ht
    obtain ⟨wd, h1, h2⟩ := (words_mem _ hd).mp ht
    rw [hw, List.mem_flatMap] at h1
    obtain ⟨f, hf, h3⟩ := h1
    refine ⟨f, hf, ?_⟩
    rcases List.mem_append.mp h3 with h4 | h4
    · exact Or.inl ((words_mem _ hd).mpr ⟨wd, h4, h2⟩)
    · exact Or.inr ((words_mem _ hd).mpr ⟨wd, h4, h2⟩)
  have key2 : ∀ d : UInt8, blank d = false → d ∈ out → d ≠ 11 ∧ d ≠ 12 ∧ d ≠ 13 := by
    intro d hd ht
    obtain ⟨f, hf, h1 | h1⟩ := key d hd ht
    · exact (h f hf).1 d h1
    · exact (h f hf).2 d h1
  refine ⟨?_, ?_, ?_⟩
  · rintro rfl; exact (key2 11 (by decide) hc).1 rfl
  · rintro rfl; exact (key2 12 (by decide) hc).2.1 rfl
  · rintro rfl; exact (key2 13 (by decide) hc).2.2 rfl

theorem flags_block (w : Int) {fs : List (Bytes × Bytes)} (hp : ∀ f ∈ fs, Plain f.1 ∧ Plain f.2) (t : Bytes) {ws : List Bytes}
    (ht : words t = ws) :
    Block [.ret (nl :: nl :: (t ++ [nl])), (flagUsages w fs).map trimEnd] (ws ++ fs.flatMap (fun f => words f.1 ++ words f.2)) := by
  obtain ⟨out, h1, h2⟩ := flagLines w (fs.foldl (fun m f => max m (f.1.length + 1)) 0) fs
  refine ⟨nl :: nl :: (t ++ nl :: trimEnd out), ?_, Or.inr ⟨_, _, rfl, by decide⟩, ?_⟩
  · have : flagUsages w fs = .ret out := h1
    simp [cat, this, Out.map]
  · rw [words_cons_nl, words_cons_nl, words_blank nl (by decide), ht, words_trimEnd (plain_flags hp h2), h2]

/-- **C144** For every command and every environment (whatever `COLUMNS` says, on any terminal or none), `--help` is printed, and its
words are exactly those of the usage line, the short and the long text, the aliases, the examples, the available commands with
their descriptions, the flags with theirs, the help topics and the footer, in this order: the width decides only about white
space. -/
theorem C144_words (e : TermEnv) {d : HelpData} (hd : PlainHelp d) :
    ∃ out, helpText (terminalWidth e) d = .ret out ∧ words out = helpWords d := by
  generalize terminalWidth e = w
  obtain ⟨lo, hl1, hl2⟩ := wrapText_spec w d.long
  have b1 : Block (if d.short ≠ [] then [.ret ([nl] ++ d.short)] else []) (words d.short) := by
    split
    · exact Block.one rfl
    · rename_i h; rw [Classical.not_not.mp h]; exact Block.nil
  have b2 : Block (if d.long ≠ [] then [.ret [nl, nl], (wrapText w d.long).map trimEnd] else []) (words d.long) := by
    split
    · refine ⟨nl :: nl :: trimEnd lo, by simp [cat, hl1, Out.map], Or.inr ⟨_, _, rfl, by decide⟩, ?_⟩
      rw [words_cons_nl, words_cons_nl, words_trimEnd (plain_of_words hl2 hd.long), hl2]
    · rename_i h; rw [Classical.not_not.mp h]; exact Block.nil
  have b3 : Block (if d.aliases = true then [.ret (lit "\n\nAliases:\n  " ++ d.nameAndAliases)] else [])
      (when d.aliases (words (text "Aliases:") ++ words d.nameAndAliases)) := by
    refine Block.bool ?_
    have e : lit "\n\nAliases:\n  " = nl :: nl :: (text "Aliases:" ++ nl :: spaces 2) := by decide +kernel
    rw [e]
    exact Block.one ((words_cons_nl _).trans (words_nl_spaces _ _ _))
  have b4 : Block (if d.example_ ≠ [] then [.ret (lit "\n\nExamples:\n" ++ d.example_)] else [])
      (when (d.example_ ≠ []) (words (text "Examples:") ++ words d.example_)) := by
    refine Block.ite (fun _ => ?_)
    have e : lit "\n\nExamples:\n" = nl :: nl :: (text "Examples:" ++ [nl]) := by decide +kernel
    rw [e]
    refine Block.one ((words_cons_nl _).trans ?_)
    have := words_blank nl (by decide) (text "Examples:") d.example_
    rwa [← List.singleton_append, ← List.append_assoc] at this
  have b5 : Block (if d.hasSub = true then .ret (lit "\n\nAvailable Commands:") ::
      d.cmds.flatMap (fun c => if c.available || c.name = lit "help" then cmdLine w c.name c.namePadding c else []) else [])
      (when d.hasSub (words (text "Available Commands:") ++
        (d.cmds.filter (fun c => c.available ∨ c.name = text "help")).flatMap (fun c => words c.name ++ words c.short))) := by
    refine Block.bool (by
      have e : lit "\n\nAvailable Commands:" = nl :: nl :: text "Available Commands:" := by decide +kernel
      have eh : lit "help" = text "help" := by decide +kernel
      have h1 := Block.one (s := nl :: text "Available Commands:") (words_cons_nl _)
      have h2 := flatMap_block d.cmds (fun c => cmdLine w c.name c.namePadding c) (fun c => c.available || c.name = lit "help")
        (fun c => words c.name ++ words c.short) (fun c _ => by
          split
          · exact cmdLine_block w c.name c.namePadding c
          · exact Block.nil)
      rw [← e] at h1
      rw [show (fun c : HelpCmd => decide (c.available ∨ c.name = text "help")) = (fun c => c.available || c.name = lit "help") by
        funext c; rw [eh]; simp]
      exact h1.append h2)
  have b6 : Block (if d.hasLocal = true then [.ret (lit "\n\nFlags:\n"), (flagUsages w d.localFlags).map trimEnd] else [])
      (when d.hasLocal (words (text "Flags:") ++ d.localFlags.flatMap (fun f => words f.1 ++ words f.2))) := by
    have := Block.bool (b := d.hasLocal) (flags_block w hd.localFlags (text "Flags:") rfl)
    simpa [show lit "\n\nFlags:\n" = nl :: nl :: (text "Flags:" ++ [nl]) by decide +kernel] using this
  have b7 : Block (if d.hasInherited = true then [.ret (lit "\n\nGlobal Flags:\n"), (flagUsages w d.inheritedFlags).map trimEnd] else [])
      (when d.hasInherited (words (text "Global Flags:") ++ d.inheritedFlags.flatMap (fun f => words f.1 ++ words f.2))) := by
    have := Block.bool (b := d.hasInherited) (flags_block w hd.inheritedFlags (text "Global Flags:") rfl)
    simpa [show lit "\n\nGlobal Flags:\n" = nl :: nl :: (text "Global Flags:" ++ [nl]) by decide +kernel] using this
  have b8 : Block (if d.hasTopics = true then .ret (lit "\n\nAdditional help topics:") ::
      d.cmds.flatMap (fun c => if c.topic then cmdLine w c.path c.pathPadding c else []) else [])
      (when d.hasTopics (words (text "Additional help topics:") ++
        (d.cmds.filter (·.topic)).flatMap (fun c => words c.path ++ words c.short))) := by
    refine Block.bool (by
      have e : lit "\n\nAdditional help topics:" = nl :: nl :: text "Additional help topics:" := by decide +kernel
      have h1 := Block.one (s := nl :: text "Additional help topics:") (words_cons_nl _)
      have h2 := flatMap_block d.cmds (fun c => cmdLine w c.path c.pathPadding c) (·.topic)
        (fun c => words c.path ++ words c.short) (fun c _ => by
          split
          · exact cmdLine_block w c.path c.pathPadding c
          · exact Block.nil)
      rw [← e] at h1
      exact h1.append h2)
  have b9 : Block (if d.hasSub = true then [.ret (lit "\n\nUse \"" ++ d.path ++ lit " [command] --help\" for more information about a command.")] else [])
      (when d.hasSub (words (text "Use \"" ++ d.path ++ text " [command] --help\" for more information about a command."))) := by
    have := Block.bool (b := d.hasSub) (Block.one (s := nl :: (text "Use \"" ++ d.path ++
      text " [command] --help\" for more information about a command.")) (words_cons_nl _))
    simpa [show lit "\n\nUse \"" = nl :: nl :: text "Use \"" by decide +kernel, show lit " [command] --help\" for more information about a command." =
      text " [command] --help\" for more information about a command." by decide +kernel] using this
  have b10 : Block [.ret [nl]] [] := ⟨[nl], rfl, Or.inr ⟨nl, [], rfl, by decide⟩, by decide +kernel⟩
  obtain ⟨b, h1, h2, h3⟩ := b1.append (b2.append (b3.append (b4.append (b5.append (b6.append (b7.append (b8.append (b9.append b10))))))))
  refine ⟨lit "Usage: " ++ d.useLine ++ b, ?_, ?_⟩
  · have := cat_append (os := [.ret (lit "Usage: " ++ d.useLine)]) (by simp [cat]; rfl) h1
    unfold helpText
    simp only [List.append_assoc] at this ⊢
    exact this
  · rw [words_begin h2, h3]
    have : lit "Usage: " ++ d.useLine = text "Usage:" ++ [sp] ++ d.useLine := by
      rw [show lit "Usage: " = text "Usage:" ++ [sp] by decide +kernel]
    rw [this, words_snoc_sp]
    unfold helpWords
    simp only [List.append_assoc, List.append_nil]

end Cli
