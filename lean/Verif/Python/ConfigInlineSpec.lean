import Verif.Python.ConfigSpec
/-! Inline comments: a comment that stands behind something on its line (`InlineCommentPrefixes`).  "Inline comments can be used only if they are
preceded by white space" (documentation of Python's configparser, which the package mimics). -/
namespace Python.Spec
open Go

/-- strict parsers that allow empty lines in values, with delimiters of one character, and with inline comments begun by one character that is
not white space -/
structure Inline (p : Parser) : Prop where
  strict : p.strict = true
  empty : p.emptyLinesInValues = true
  marks : ∀ m ∈ p.inlineCommentPrefixes, ∃ c, m = [c] ∧ isSpace c = false
  delims : ∀ d ∈ p.delimiters, ∃ c, d = [c]
  prefixes : ∀ c ∈ p.commentPrefixes, c ≠ []

/-- an inline comment can begin behind `a`: `a` is empty or ends with white space -/
def CanBegin (a : Str) : Prop := a = [] ∨ ∃ b c, a = b ++ [c] ∧ isSpace c = true

/-- no inline comment begins in `l` -/
def NoInline (p : Parser) (l : Str) : Prop := ∀ a c b, l = a ++ c :: b → [c] ∈ p.inlineCommentPrefixes → ¬ CanBegin a

/-- `Stripped p l l'`: the line `l` without its inline comment, if it has one, is `l'`; comment lines are left as they are, and a line has
something before its inline comment -/
def Stripped (p : Parser) (l l' : Str) : Prop :=
  (Comment p l ∧ l' = l) ∨
  (¬ Comment p l ∧ NoInline p l ∧ l' = l) ∨
  (¬ Comment p l ∧ ¬ Blank l' ∧ ∃ c r, l = l' ++ c :: r ∧ [c] ∈ p.inlineCommentPrefixes ∧ CanBegin l' ∧ NoInline p l')

/-- `Strips p ls ls'`: the lines `ls` without their inline comments are `ls'`; a line with only an inline comment is left out -/
inductive Strips (p : Parser) : List Str → List Str → Prop
  | nil : Strips p [] []
  | line {l l' ls ls'} : Stripped p l l' → Strips p ls ls' → Strips p (l :: ls) (l' :: ls')
  | only {a c r ls ls'} : ¬ Comment p (a ++ c :: r) → Blank a → [c] ∈ p.inlineCommentPrefixes → Strips p ls ls' → Strips p ((a ++ c :: r) :: ls) ls'

/-- the first of the characters that begin inline comments in a line, if there is one, comes directly after white space -/
def Apart (p : Parser) (l : Str) : Prop :=
  ∀ a c b, l = a ++ c :: b → [c] ∈ p.inlineCommentPrefixes → (∀ d ∈ a, [d] ∉ p.inlineCommentPrefixes) → ∃ a' w, a = a' ++ [w] ∧ isSpace w = true

end Python.Spec
