import Verif.Python.ConfigSpec
/-! What a configuration text with repeated sections and options says to a parser that is not strict. -/
namespace Python.Spec
open Go

/-- parsers that are not strict, allow empty lines in values, have no inline comments and delimiters of one character -/
structure Lenient (p : Parser) : Prop where
  strict : p.strict = false
  empty : p.emptyLinesInValues = true
  inline : p.inlineCommentPrefixes = []
  delims : ∀ d ∈ p.delimiters, ∃ c, d = [c]
  prefixes : ∀ c ∈ p.commentPrefixes, c ≠ []

/-- everything that a document says, in order: the value of an option of a section -/
def said (d : List (Str × List (Str × List Str))) : List ((Str × Str) × Str) :=
  d.flatMap (fun e => e.2.map (fun o => ((e.1, o.1), value o.2)))

/-- the last thing that is said about `x` is `v` -/
def Last (l : List ((Str × Str) × Str)) (x : Str × Str) (v : Str) : Prop := ∃ a b, l = a ++ (x, v) :: b ∧ ∀ y ∈ b, y.1 ≠ x

end Python.Spec
