import Verif.Python.ConfigSpec
/-! What a configuration text says if empty lines are not allowed in values (`EmptyLinesInValues: false`): "this will make empty lines split
keys every time" (documentation of Python's configparser, which the package mimics).  As there, a line with only a comment counts as empty. -/
namespace Python.Spec
open Go

/-- the line is empty or a comment -/
def Gap (p : Parser) (l : Str) : Prop := Comment p l ∨ Blank l

/-- `Ends p k ls vs rest`: as `Continues`, but an empty line ends the value -/
inductive Ends (p : Parser) (k : Nat) : List Str → List Str → List Str → Prop
  | eof : Ends p k [] [] []
  | done {l ls} : Content p l → (indent l = 0 ∨ indent l ≤ k) → Ends p k (l :: ls) [] (l :: ls)
  | gap {l ls} : Gap p l → Ends p k (l :: ls) [] (l :: ls)
  | more {l ls vs rest} : Content p l → 0 < indent l → k < indent l → Ends p k ls vs rest → Ends p k (l :: ls) (trimSpace l :: vs) rest

/-- as `Options`, with values that end at empty lines -/
inductive SplitOptions (p : Parser) : List Str → List (Str × List Str) → List Str → Prop
  | eof : SplitOptions p [] [] []
  | done {l ls s} : Content p l → SectionHeader l s → SplitOptions p (l :: ls) [] (l :: ls)
  | skip {l ls os rest} : Gap p l → SplitOptions p ls os rest → SplitOptions p (l :: ls) os rest
  | opt {l ls k v vs mid os rest} : Content p l → (∀ s, ¬ SectionHeader l s) → KeyValue p l k v →
      Ends p (indent l) ls vs mid → SplitOptions p mid os rest → SplitOptions p (l :: ls) ((k, v :: vs) :: os) rest

/-- as `Document`, with values that end at empty lines -/
inductive SplitDocument (p : Parser) : List Str → List (Str × List (Str × List Str)) → Prop
  | eof : SplitDocument p [] []
  | skip {l ls d} : Gap p l → SplitDocument p ls d → SplitDocument p (l :: ls) d
  | sect {l ls s os rest d} : Content p l → SectionHeader l s → SplitOptions p ls os rest → SplitDocument p rest d →
      SplitDocument p (l :: ls) ((s, os) :: d)

/-- strict parsers that do not allow empty lines in values, without inline comments, with delimiters of one character -/
structure Splitting (p : Parser) : Prop where
  strict : p.strict = true
  empty : p.emptyLinesInValues = false
  inline : p.inlineCommentPrefixes = []
  delims : ∀ d ∈ p.delimiters, ∃ c, d = [c]
  prefixes : ∀ c ∈ p.commentPrefixes, c ≠ []

/-- a line that follows an empty one is not indented -/
def Flat (p : Parser) (ls : List Str) : Prop :=
  ∀ a g mid l b, ls = a ++ g :: (mid ++ l :: b) → Gap p g → (∀ x ∈ mid, Gap p x) → Content p l → indent l = 0

end Python.Spec
