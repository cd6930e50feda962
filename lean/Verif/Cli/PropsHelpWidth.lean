import Verif.Cli.PropsHelp
/-! C144: the width of the terminal, help that is not printed to a terminal, and lines that fit. -/
namespace Cli
open Spec Go

namespace Spec
/-- the text is a number of 64 bits -/
def Number (s : Str) (z : Int) : Prop := ReadsInt s z ∧ -2 ^ 63 ≤ z ∧ z < 2 ^ 63

/-- the width to wrap to: `COLUMNS` if it is a number, else the width of the terminal, 80 if that is not known, and 0 (do not
wrap) if the output is no terminal -/
inductive Width (e : TermEnv) : Int → Prop where
  | columns {z : Int} : Number e.columns z → Width e z
  | size {n : Int} : (∀ z, ¬ Number e.columns z) → e.size = some n → Width e n
  | unknown : (∀ z, ¬ Number e.columns z) → e.size = none → e.isTerminal = true → Width e 80
  | none : (∀ z, ¬ Number e.columns z) → e.size = none → e.isTerminal = false → Width e 0

/-- the lines that are printed as they are -/
def fixedTexts (d : HelpData) : List (List UInt8) :=
  [text "Usage: " ++ d.useLine, d.short] ++ (if d.aliases then [text "  " ++ d.nameAndAliases] else []) ++ [d.example_] ++
  (if d.hasSub then [text "Use \"" ++ d.path ++ text " [command] --help\" for more information about a command."] else [])

/-- on a terminal of at least 40 columns, with room for the names, and no very long words -/
structure Roomy (w : Nat) (d : HelpData) : Prop where
  wide : 40 ≤ w
  int : w < 2 ^ 63
  fixed : ∀ t ∈ fixedTexts d, Fits w t
  long : ∀ wd ∈ words d.long, wd.length + 7 ≤ w
  noTopics : d.hasTopics = false
  names : ∀ c ∈ d.cmds, c.name.length ≤ c.namePadding ∧ c.namePadding + 5 ≤ w ∧ ∀ wd ∈ words c.short, wd.length ≤ 17
  flags : ∀ f ∈ d.localFlags ++ d.inheritedFlags, f.1.length + 3 ≤ w ∧ ∀ wd ∈ words f.2, wd.length ≤ 17
end Spec

/-- **C144** The width is the one specified, and no other. -/
theorem C144_width (e : TermEnv) (z : Int) : terminalWidth e = z ↔ Width e z := by
  have hn : atoi e.columns = none ↔ ∀ z, ¬ Number e.columns z := by
    constructor
    · intro h z hz
      rw [(atoi_spec _ _).mpr hz] at h
      cases h
    · intro h
      cases h1 : atoi e.columns with
      | none => rfl
      | some z => exact absurd ((atoi_spec _ _).mp h1) (h z)
  unfold terminalWidth
  constructor
  · intro h
    cases h1 : atoi e.columns with
    | some k =>
      rw [h1] at h
      cases h
      exact .columns ((atoi_spec _ _).mp h1)
    | none =>
      rw [h1] at h
      have h2 := hn.mp h1
      cases h3 : e.size with
      | some k => simp only [h3] at h; cases h; exact .size h2 h3
      | none =>
        simp only [h3] at h
        cases h4 : e.isTerminal with
        | true => simp only [h4] at h; cases h; exact .unknown h2 h3 h4
        | false => simp only [h4] at h; cases h; exact .none h2 h3 h4
  · intro h
    cases h with
    | columns h => rw [(atoi_spec _ _).mpr h]
    | size h h' => rw [hn.mpr h]; simp only [h']
    | unknown h h' h'' => rw [hn.mpr h]; simp only [h', h'']; rfl
    | none h h' h'' => rw [hn.mpr h]; simp only [h', h'']; rfl

theorem cat_infix {os : List Out} {b : Bytes} (h : cat os = .ret b) {mid : List Out} {m : Bytes} (e : mid <:+: os)
    (hm : cat mid = .ret m) : m <:+: b := by
  have split : ∀ (x y : List Out) (c : Bytes), cat (x ++ y) = .ret c → ∃ a b, cat x = .ret a ∧ cat y = .ret b ∧ c = a ++ b := by
    intro x
    induction x with
    | nil => intro y c h; exact ⟨[], c, rfl, h, rfl⟩
    | cons o x ih =>
      intro y c h
      cases o with
      | ret s =>
        rw [List.cons_append, cat] at h
        cases h1 : cat (x ++ y) with
        | ret t =>
          rw [h1] at h
          cases h
          obtain ⟨a, b, h2, h3, rfl⟩ := ih y t h1
          exact ⟨s ++ a, b, by rw [cat, h2], h3, by rw [List.append_assoc]⟩
        | panic => rw [h1] at h; cases h
        | loop => rw [h1] at h; cases h
      | panic => cases h
      | loop => cases h
  obtain ⟨pre, post, rfl⟩ := e
  obtain ⟨a, c, h1, h2, rfl⟩ := split _ _ _ h
  obtain ⟨x, y, h3, h4, rfl⟩ := split _ _ _ h1
  rw [hm] at h4
  cases h4
  exact ⟨x, c, rfl⟩

/-- one of the parts of a list -/
macro "in_parts" : tactic =>
  `(tactic| repeat (first | exact (List.suffix_append _ _).isInfix | refine List.IsInfix.trans ?_ (List.prefix_append _ _).isInfix))

theorem indented_zero (s : Bytes) : indented 0 s = s := by
  induction s with
  | nil => rfl
  | cons c s ih =>
    rw [indented]
    split
    · rw [ih]; rfl
    · rw [ih]

theorem indented_line (i : Nat) {s : Bytes} (h : 10 ∉ s) : indented i s = s := by
  induction s with
  | nil => rfl
  | cons c s ih =>
    rw [indented, if_neg (fun e => h (by simp [e])), ih (fun e => h (by simp [e]))]

theorem trimEnd_self {s : Bytes} (h : ∀ c, s.getLast? = some c → blank c = false ∧ c ≠ 11 ∧ c ≠ 12 ∧ c ≠ 13) : trimEnd s = s := by
  unfold trimEnd
  cases hr : s.reverse with
  | nil => rw [List.reverse_eq_nil_iff.mp hr]; rfl
  | cons c t =>
    have e : s = t.reverse ++ [c] := by rw [← List.reverse_reverse s, hr, List.reverse_cons]
    have hc := h c (by rw [e]; simp)
    have : asciiSpace c = false := by
      obtain ⟨h1, h2⟩ := hc
      revert h1 h2
      unfold asciiSpace blank
      obtain ⟨⟨⟨n, hn⟩⟩⟩ := c
      simp only [Bool.or_eq_false_iff, Bool.and_eq_false_iff, decide_eq_false_iff_not, ne_eq, UInt8.le_iff_toNat_le, ← UInt8.toNat_inj]
      simp
      omega
    rw [List.dropWhile_cons, this]
    simp [e]

/-- **C144** Where nothing says how wide the output is (no `COLUMNS`, not a terminal: a pipe or a file), nothing is wrapped: the
long text is printed as it is, and the description of a command follows its name on one line. -/
theorem C144_piped {e : TermEnv} (hc : ∀ z, ¬ Number e.columns z) (hs : e.size = none) (ht : e.isTerminal = false) {d : HelpData} {out : Bytes}
    (h : helpText (terminalWidth e) d = .ret out) :
    (d.long ≠ [] → (∀ c, d.long.getLast? = some c → blank c = false ∧ c ≠ 11 ∧ c ≠ 12 ∧ c ≠ 13) → text "\n\n" ++ d.long <:+: out) ∧
    (d.hasSub = true → ∀ c ∈ d.cmds, (c.available = true ∨ c.name = text "help") → 10 ∉ c.short →
      text "\n  " ++ c.name ++ List.replicate (c.namePadding - c.name.length) 32 ++ text "   " ++ c.short <:+: out) := by
  rw [(C144_width e 0).mpr (.none hc hs ht)] at h
  unfold helpText at h
  constructor
  · intro hl hend
    rw [if_pos hl] at h
    refine cat_infix h (mid := [.ret [nl, nl], (wrapText 0 d.long).map trimEnd]) (by in_parts) ?_
    have : wrapText 0 d.long = .ret d.long := by
      have := C80_no_wrapping (i := 0) (by omega) d.long d.long.length
      rw [show (0 : Int).toNat = 0 from rfl, indented_zero] at this
      exact this
    rw [this]
    simp only [Out.map, trimEnd_self hend, cat]
    rw [show text "\n\n" = [nl, nl] by decide +kernel]
    simp
  · intro hsub c hmem hav hnl
    rw [if_pos hsub] at h
    obtain ⟨x, y, hxy⟩ := List.append_of_mem hmem
    have hq : (c.available || c.name = lit "help") = true := by
      rw [show lit "help" = text "help" by decide +kernel]
      simpa using hav
    refine cat_infix h (mid := cmdLine 0 c.name c.namePadding c) ?_ ?_
    · refine List.IsInfix.trans (l₂ := .ret (lit "\n\nAvailable Commands:") ::
        d.cmds.flatMap (fun c => if c.available || c.name = lit "help" then cmdLine 0 c.name c.namePadding c else [])) ?_ (by in_parts)
      refine List.IsInfix.trans ?_ (List.suffix_cons _ _).isInfix
      rw [hxy, List.flatMap_append, List.flatMap_cons, if_pos hq]
      exact ⟨_, _, List.append_assoc _ _ _⟩
    · have : wrapIndent (c.namePadding + 5) 0 c.short = .ret c.short := by
        have := C80_no_wrapping (i := ((c.namePadding + 5 : Nat) : Int)) (by omega) c.short c.short.length
        rw [indented_line _ hnl] at this
        exact this
      unfold cmdLine
      rw [this]
      simp only [cat]
      rw [show text "\n  " = [nl] ++ lit "  " by decide +kernel, show text "   " = lit "   " by decide +kernel]
      simp [rpad, spaces, sp]

theorem Spec.Fits.infix {M : Nat} {a b : Bytes} (h : Fits M b) (hi : a <:+: b) : Fits M a := fun l hl hn => h l (hl.trans hi) hn

theorem Spec.Fits.join {M : Nat} {a b : Bytes} (ha : Fits M a) (hb : Fits M b) : Fits M (a ++ nl :: b) := fun l hl hn =>
  (infix_cut hl hn).elim (fun h => ha l h hn) (fun h => hb l h hn)

theorem Spec.Fits.short {M : Nat} {a : Bytes} (h : a.length ≤ M) : Fits M a := fun _ hl _ => Nat.le_trans hl.length_le h

theorem Spec.Fits.nl_cons {M : Nat} {b : Bytes} (hb : Fits M b) : Fits M (nl :: b) := Fits.join (a := []) (Fits.short (Nat.zero_le _)) hb

theorem Spec.Fits.trimEnd {M : Nat} {b : Bytes} (hb : Fits M b) : Fits M (trimEnd b) := by
  obtain ⟨t, e, _⟩ := trimEnd_split b
  exact hb.infix ⟨[], t, by rw [List.nil_append]; exact e.symm⟩

/-- the parts print lines that fit, beginning with a line feed -/
def Lines (M : Nat) (os : List Out) : Prop := ∃ b, cat os = .ret b ∧ (b = [] ∨ ∃ t, b = nl :: t) ∧ Fits M b

theorem Lines.append {M : Nat} {os os' : List Out} (h : Lines M os) (h' : Lines M os') : Lines M (os ++ os') := by
  obtain ⟨a, h1, h2, h3⟩ := h
  obtain ⟨b, h4, h5, h6⟩ := h'
  refine ⟨a ++ b, cat_append h1 h4, ?_, ?_⟩
  · rcases h2 with rfl | ⟨t, rfl⟩
    · exact h5
    · exact Or.inr ⟨t ++ b, rfl⟩
  · rcases h5 with rfl | ⟨t, rfl⟩
    · rw [List.append_nil]; exact h3
    · exact h3.join (h6.infix (List.suffix_cons nl t).isInfix)

theorem Lines.nil {M : Nat} : Lines M [] := ⟨[], rfl, Or.inl rfl, Fits.short (Nat.zero_le _)⟩

theorem Lines.ite {M : Nat} {b : Prop} [Decidable b] {os : List Out} (h : b → Lines M os) : Lines M (if b then os else []) := by
  split
  · exact h ‹_›
  · exact Lines.nil

theorem Lines.one {M : Nat} {s : Bytes} (h : Fits M s) : Lines M [.ret (nl :: s)] := ⟨nl :: s, by simp [cat], Or.inr ⟨s, rfl⟩, h.nl_cons⟩

theorem Lines.flatMap {α : Type} {M : Nat} (l : List α) {f : α → List Out} (h : ∀ a ∈ l, Lines M (f a)) : Lines M (l.flatMap f) := by
  induction l with
  | nil => exact Lines.nil
  | cons a l ih => rw [List.flatMap_cons]; exact (h a (by simp)).append (ih (fun b hb => h b (by simp [hb])))

theorem wrapIndent_fits {i w : Nat} {p s : Bytes} (h40 : 40 ≤ w) (hint : w < 2 ^ 63) (hi : i ≤ w) (hp : p.length ≤ i) (hw : ∀ wd ∈ words s, wd.length ≤ 17) :
    ∃ out, wrapIndent i w s = .ret out ∧ Fits w (p ++ out) := by
  obtain ⟨out, h, _⟩ := wrapIndent_spec i w s
  refine ⟨out, h, ?_⟩
  by_cases hr : i + 24 ≤ w
  · exact C85_fits hint hr hp (fun wd hwd => by have := hw wd hwd; omega) h
  · exact C85_fits_block (by omega) hint (by omega) h40 (by omega) (fun wd hwd => by have := hw wd hwd; omega) h

theorem maxlen_le {M : Nat} (fs : List (Bytes × Bytes)) : ∀ m, (m ≤ M ∧ ∀ f ∈ fs, f.1.length + 1 ≤ M) →
    fs.foldl (fun m f => max m (f.1.length + 1)) m ≤ M := by
  induction fs with
  | nil => intro m h; exact h.1
  | cons f fs ih =>
    intro m h
    exact ih _ ⟨Nat.max_le.mpr ⟨h.1, h.2 f (by simp)⟩, fun g hg => h.2 g (by simp [hg])⟩

theorem le_maxlen (fs : List (Bytes × Bytes)) : ∀ m, m ≤ fs.foldl (fun m f => max m (f.1.length + 1)) m ∧
    ∀ f ∈ fs, f.1.length + 1 ≤ fs.foldl (fun m f => max m (f.1.length + 1)) m := by
  induction fs with
  | nil => intro m; simp
  | cons f fs ih =>
    intro m
    obtain ⟨h1, h2⟩ := ih (max m (f.1.length + 1))
    rw [List.foldl_cons]
    refine ⟨by omega, ?_⟩
    intro g hg
    rcases List.mem_cons.mp hg with rfl | hg
    · omega
    · exact h2 g hg

theorem flagLines_fits {w m : Nat} (h40 : 40 ≤ w) (hint : w < 2 ^ 63) (hm : m + 2 ≤ w) (fs : List (Bytes × Bytes))
    (h : ∀ f ∈ fs, f.1.length ≤ m ∧ ∀ wd ∈ words f.2, wd.length ≤ 17) :
    ∃ out, cat (fs.flatMap fun f => [.ret (f.1 ++ [sp] ++ spaces (m - f.1.length) ++ [sp]), wrapIndent (m + 2) w f.2, .ret [nl]]) = .ret out ∧
      Fits w out := by
  induction fs with
  | nil => exact ⟨[], rfl, Fits.short (Nat.zero_le _)⟩
  | cons f fs ih =>
    obtain ⟨rest, h1, h2⟩ := ih (fun g hg => h g (by simp [hg]))
    obtain ⟨hl, hw⟩ := h f (by simp)
    obtain ⟨out, h3, h4⟩ := wrapIndent_fits (i := m + 2) (p := f.1 ++ [sp] ++ spaces (m - f.1.length) ++ [sp]) h40 hint hm
      (by simp [spaces]; omega) hw
    rw [List.flatMap_cons]
    refine ⟨_, cat_append (a := f.1 ++ [sp] ++ spaces (m - f.1.length) ++ [sp] ++ out ++ [nl]) (by simp [cat, h3]) h1, ?_⟩
    have := h4.join h2
    rw [show ∀ a : Bytes, a ++ [nl] ++ rest = a ++ nl :: rest by simp]
    exact this

theorem flags_lines {w : Nat} (h40 : 40 ≤ w) (hint : w < 2 ^ 63) {fs : List (Bytes × Bytes)}
    (h : ∀ f ∈ fs, f.1.length + 3 ≤ w ∧ ∀ wd ∈ words f.2, wd.length ≤ 17) {t : Bytes} (ht : t.length ≤ w) :
    Lines w [.ret (nl :: nl :: (t ++ [nl])), (flagUsages w fs).map trimEnd] := by
  have hm : fs.foldl (fun m f => max m (f.1.length + 1)) 0 ≤ w - 2 :=
    maxlen_le fs 0 ⟨by omega, fun f hf => by have := (h f hf).1; omega⟩
  obtain ⟨out, h1, h2⟩ := flagLines_fits (m := fs.foldl (fun m f => max m (f.1.length + 1)) 0) h40 hint (by omega) fs
    (fun f hf => ⟨by have := (le_maxlen fs 0).2 f hf; omega, (h f hf).2⟩)
  have e : flagUsages w fs = .ret out := h1
  refine ⟨nl :: nl :: (t ++ nl :: trimEnd out), by simp [cat, e, Out.map], Or.inr ⟨_, rfl⟩, ?_⟩
  exact ((Fits.short ht).join h2.trimEnd).nl_cons.nl_cons

/-- **C144** On a terminal of at least 40 columns, if the lines printed as they are fit, the names leave room, and no word of a
description is longer than 17 bytes, then no line of the help is longer than the terminal is wide. -/
theorem C144_fits {e : TermEnv} {w : Nat} (hw : terminalWidth e = w) {d : HelpData} (hd : Roomy w d) {out : Bytes}
    (h : helpText (terminalWidth e) d = .ret out) : Fits w out := by
  rw [hw] at h
  have h40 := hd.wide
  have hint := hd.int
  have fixed : ∀ t, t ∈ fixedTexts d → Fits w t := hd.fixed
  have b1 : Lines w (if d.short ≠ [] then [.ret ([nl] ++ d.short)] else []) :=
    Lines.ite (fun _ => Lines.one (fixed _ (by simp [fixedTexts])))
  have b2 : Lines w (if d.long ≠ [] then [.ret [nl, nl], (wrapText w d.long).map trimEnd] else []) := by
    refine Lines.ite (fun _ => ?_)
    obtain ⟨o, h1, _⟩ := wrapText_spec w d.long
    have h2 : Fits w ([] ++ o) := C85_fits (i := 0) (p := []) hint (by omega) (Nat.le_refl _) (fun wd hwd => by have := hd.long wd hwd; omega) h1
    exact ⟨nl :: nl :: trimEnd o, by simp [cat, h1, Out.map], Or.inr ⟨_, rfl⟩, (Fits.trimEnd h2).nl_cons.nl_cons⟩
  have b3 : Lines w (if d.aliases = true then [.ret (lit "\n\nAliases:\n  " ++ d.nameAndAliases)] else []) := by
    refine Lines.ite (fun ha => ?_)
    rw [show lit "\n\nAliases:\n  " ++ d.nameAndAliases = nl :: nl :: (lit "Aliases:" ++ nl :: (text "  " ++ d.nameAndAliases)) by
      rw [show lit "\n\nAliases:\n  " = nl :: nl :: (lit "Aliases:" ++ nl :: text "  ") by decide +kernel]; simp]
    refine Lines.one (Fits.join (Fits.short ?_) (fixed _ (by simp [fixedTexts, ha]))).nl_cons
    rw [show (lit "Aliases:").length = 8 by decide +kernel]; omega
  have b4 : Lines w (if d.example_ ≠ [] then [.ret (lit "\n\nExamples:\n" ++ d.example_)] else []) := by
    refine Lines.ite (fun _ => ?_)
    rw [show lit "\n\nExamples:\n" ++ d.example_ = nl :: nl :: (lit "Examples:" ++ nl :: d.example_) by
      rw [show lit "\n\nExamples:\n" = nl :: nl :: (lit "Examples:" ++ [nl]) by decide +kernel]; simp]
    refine Lines.one (Fits.join (Fits.short ?_) (fixed _ (by simp [fixedTexts]))).nl_cons
    rw [show (lit "Examples:").length = 9 by decide +kernel]; omega
  have b5 : Lines w (if d.hasSub = true then .ret (lit "\n\nAvailable Commands:") ::
      d.cmds.flatMap (fun c => if c.available || c.name = lit "help" then cmdLine w c.name c.namePadding c else []) else []) := by
    refine Lines.ite (fun _ => ?_)
    have h1 : Lines w [.ret (lit "\n\nAvailable Commands:")] := by
      rw [show lit "\n\nAvailable Commands:" = nl :: nl :: lit "Available Commands:" by decide +kernel]
      refine Lines.one (Fits.short ?_).nl_cons
      rw [show (lit "Available Commands:").length = 19 by decide +kernel]; omega
    refine h1.append (Lines.flatMap _ (fun c hc => Lines.ite (fun _ => ?_)))
    obtain ⟨n1, n2, n3⟩ := hd.names c hc
    obtain ⟨o, h2, h3⟩ := wrapIndent_fits (i := c.namePadding + 5) (p := lit "  " ++ rpad c.name c.namePadding ++ lit "   ") h40 hint n2
      (by rw [show lit "  " = spaces 2 by decide +kernel, show lit "   " = spaces 3 by decide +kernel]; simp [rpad, spaces]; omega) n3
    refine ⟨nl :: (lit "  " ++ rpad c.name c.namePadding ++ lit "   " ++ o), ?_, Or.inr ⟨_, rfl⟩, h3.nl_cons⟩
    simp [cmdLine, cat, h2]
  have b6 : Lines w (if d.hasLocal = true then [.ret (lit "\n\nFlags:\n"), (flagUsages w d.localFlags).map trimEnd] else []) := by
    refine Lines.ite (fun _ => ?_)
    rw [show lit "\n\nFlags:\n" = nl :: nl :: (lit "Flags:" ++ [nl]) by decide +kernel]
    refine flags_lines h40 hint (fun f hf => hd.flags f (by simp [hf])) ?_
    rw [show (lit "Flags:").length = 6 by decide +kernel]; omega
  have b7 : Lines w (if d.hasInherited = true then [.ret (lit "\n\nGlobal Flags:\n"), (flagUsages w d.inheritedFlags).map trimEnd] else []) := by
    refine Lines.ite (fun _ => ?_)
    rw [show lit "\n\nGlobal Flags:\n" = nl :: nl :: (lit "Global Flags:" ++ [nl]) by decide +kernel]
    refine flags_lines h40 hint (fun f hf => hd.flags f (by simp [hf])) ?_
    rw [show (lit "Global Flags:").length = 13 by decide +kernel]; omega
  have b8 : Lines w (if d.hasTopics = true then .ret (lit "\n\nAdditional help topics:") ::
      d.cmds.flatMap (fun c => if c.topic then cmdLine w c.path c.pathPadding c else []) else []) :=
    Lines.ite (fun ht => absurd ht (by rw [hd.noTopics]; decide))
  have b9 : Lines w (if d.hasSub = true then [.ret (lit "\n\nUse \"" ++ d.path ++ lit " [command] --help\" for more information about a command.")] else []) := by
    refine Lines.ite (fun hs => ?_)
    rw [show lit "\n\nUse \"" = nl :: nl :: text "Use \"" by decide +kernel, show lit " [command] --help\" for more information about a command." =
      text " [command] --help\" for more information about a command." by decide +kernel]
    exact Lines.one (fixed (text "Use \"" ++ d.path ++ text " [command] --help\" for more information about a command.") (by simp [fixedTexts, hs])).nl_cons
  have b10 : Lines w [.ret [nl]] := Lines.one (Fits.short (Nat.zero_le _))
  obtain ⟨b, h1, h2, h3⟩ := b1.append (b2.append (b3.append (b4.append (b5.append (b6.append (b7.append (b8.append (b9.append b10))))))))
  have h4 := cat_append (os := [.ret (lit "Usage: " ++ d.useLine)]) (a := lit "Usage: " ++ d.useLine) (by simp [cat]) h1
  unfold helpText at h
  simp only [List.append_assoc] at h h4
  rw [h4] at h
  cases h
  have hu : Fits w (lit "Usage: " ++ d.useLine) := by
    rw [show lit "Usage: " = text "Usage: " by decide +kernel]
    exact fixed _ (by simp [fixedTexts])
  rw [← List.append_assoc]
  rcases h2 with rfl | ⟨t, rfl⟩
  · rw [List.append_nil]; exact hu
  · exact hu.join (h3.infix (List.suffix_cons nl t).isInfix)

/-- a command with a subcommand and two flags -/
def sampleHelp : HelpData where
  useLine := text "frob [flags] FILE"
  short := text "Frob a file"
  long := text "Frobs the file, and then frobs it again until done."
  aliases := false
  nameAndAliases := []
  example_ := []
  hasSub := true
  cmds := [⟨text "baz", text "frob baz", text "One line on its own, wrapped here", 11, 11, true, false⟩]
  hasLocal := true
  localFlags := [(text "  -b, --bar", text "Bars the baz"), (text "  -f, --foo FOO", text "Foos it")]
  hasInherited := false
  inheritedFlags := []
  hasTopics := false
  path := text "f"

example : helpText 40 sampleHelp = .ret (text ("Usage: frob [flags] FILE\nFrob a file\n\nFrobs the file, and then frobs it\nagain until done.\n\n" ++
    "Available Commands:\n  baz           One line on its\n                own, wrapped here\n\n" ++
    "Flags:\n  -b, --bar       \n                Bars the baz\n  -f, --foo FOO   \n                Foos it\n\n" ++
    "Use \"f [command] --help\" for more information about a command.\n")) := by decide +kernel

instance (s : Bytes) : Decidable (Plain s) := inferInstanceAs (Decidable (∀ c ∈ s, c ≠ 11 ∧ c ≠ 12 ∧ c ≠ 13))

theorem sample_plain : PlainHelp sampleHelp := ⟨by decide +kernel, by decide +kernel, by decide +kernel⟩

example : ∃ out, helpText (terminalWidth ⟨"-9223372036854775808".toList, none, false⟩) sampleHelp = .ret out ∧ words out = helpWords sampleHelp :=
  C144_words _ sample_plain

theorem sample_roomy : Roomy 80 sampleHelp where
  wide := by decide
  int := by decide
  fixed := fun t ht => Fits.short ((show ∀ t ∈ fixedTexts sampleHelp, t.length ≤ 80 by decide +kernel) t ht)
  long := by decide +kernel
  noTopics := rfl
  names := by decide +kernel
  flags := by decide +kernel

example : terminalWidth ⟨"80".toList, some 132, true⟩ = 80 ∧ terminalWidth ⟨"wide".toList, some 132, true⟩ = 132 ∧
    terminalWidth ⟨[], none, true⟩ = 80 ∧ terminalWidth ⟨[], none, false⟩ = 0 := by decide +kernel

example : ∃ out, helpText (terminalWidth ⟨"80".toList, some 132, true⟩) sampleHelp = .ret out ∧ Fits 80 out := by
  obtain ⟨out, h, _⟩ := C144_words ⟨"80".toList, some 132, true⟩ sample_plain
  exact ⟨out, h, C144_fits (w := 80) (by decide +kernel) sample_roomy h⟩

/-- the texts of a pipe: not a number, no size, no terminal -/
example : ∃ out, helpText (terminalWidth ⟨[], none, false⟩) sampleHelp = .ret out ∧ text "\n\n" ++ sampleHelp.long <:+: out := by
  obtain ⟨out, h, _⟩ := C144_words ⟨[], none, false⟩ sample_plain
  refine ⟨out, h, (C144_piped (e := ⟨[], none, false⟩) (fun z hz => ?_) rfl rfl h).1 (by decide +kernel) ?_⟩
  · have := (atoi_spec [] z).mpr hz
    cases this
  · decide +kernel

/-- A list of additional help topics is wrapped by the width of the names though the paths are printed, which are longer: its lines
need not fit.  No command of ocibuild has such a list. -/
theorem C144_topics : ∃ (d : HelpData) (out : Bytes), helpText 80 d = .ret out ∧ (∀ c ∈ d.cmds, c.path.length ≤ c.pathPadding ∧
    c.name.length ≤ c.namePadding ∧ c.pathPadding + 5 + 24 ≤ 80 ∧ ∀ wd ∈ words c.short, wd.length ≤ 17) ∧ ¬ Fits 80 out := by
  refine ⟨⟨text "x", [], [], false, [], [], false, [⟨text "topic", text "frobnicate example-subcommand topic",
    text "One line description of the topic, one line on its own, but wrapped in the table", 11, 35, false, true⟩], false, [], false, [], true, text "x"⟩,
    text ("Usage: x\n\nAdditional help topics:\n" ++
      "  frobnicate example-subcommand topic   One line description of the topic, one line on its own,\n                but wrapped in the table\n"),
    by decide +kernel, by decide +kernel, ?_⟩
  intro h
  exact absurd (h (text "  frobnicate example-subcommand topic   One line description of the topic, one line on its own,")
    ⟨text "Usage: x\n\nAdditional help topics:\n", text "\n                but wrapped in the table\n", by decide +kernel⟩ (by decide +kernel)) (by decide +kernel)

end Cli
