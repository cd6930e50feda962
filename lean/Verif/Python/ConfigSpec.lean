import Verif.Python.Config
/-! What a configuration text says: a grammar over its lines. -/
namespace Python.Spec
open Go

/-- the line is a comment -/
def Comment (p : Parser) (l : Str) : Prop := ∃ c ∈ p.commentPrefixes, c <+: trimSpace l

/-- the line has only white space -/
def Blank (l : Str) : Prop := ∀ c ∈ l, isSpace c = true

/-- the line says something -/
def Content (p : Parser) (l : Str) : Prop := ¬ Comment p l ∧ ¬ Blank l

/-- width in bytes of the white space the line starts with -/
def indent (l : Str) : Nat := ((l.takeWhile isSpace).map Char.utf8Size).sum

/-- `[s]` -/
def SectionHeader (l s : Str) : Prop := trimSpace l = '[' :: (s ++ [']'])

/-- `k = v`, where the delimiter is the first one in the line -/
def KeyValue (p : Parser) (l k v : Str) : Prop :=
  ∃ a c b, trimSpace l = a ++ c :: b ∧ [c] ∈ p.delimiters ∧ (∀ x ∈ a, [x] ∉ p.delimiters) ∧
    k = p.transform (trimSpace a) ∧ v = trimSpace b

/-- `Continues p k ls vs rest`: after an option whose line is indented by `k`, the lines `ls` go on with its value by the
lines `vs`; then come the lines `rest` -/
inductive Continues (p : Parser) (k : Nat) : List Str → List Str → List Str → Prop
  | eof : Continues p k [] [] []
  | done {l ls} : Content p l → (indent l = 0 ∨ indent l ≤ k) → Continues p k (l :: ls) [] (l :: ls)
  | comment {l ls vs rest} : Comment p l → Continues p k ls vs rest → Continues p k (l :: ls) vs rest
  | blank {l ls vs rest} : Blank l → Continues p k ls vs rest → Continues p k (l :: ls) ([] :: vs) rest
  | more {l ls vs rest} : Content p l → 0 < indent l → k < indent l → Continues p k ls vs rest →
      Continues p k (l :: ls) (trimSpace l :: vs) rest

/-- `Options p ls os rest`: the lines `ls` give the options `os` (key and lines of the value), up to the next section header
or the end, at `rest` -/
inductive Options (p : Parser) : List Str → List (Str × List Str) → List Str → Prop
  | eof : Options p [] [] []
  | done {l ls s} : Content p l → SectionHeader l s → Options p (l :: ls) [] (l :: ls)
  | skip {l ls os rest} : (Comment p l ∨ Blank l) → Options p ls os rest → Options p (l :: ls) os rest
  | opt {l ls k v vs mid os rest} : Content p l → (∀ s, ¬ SectionHeader l s) → KeyValue p l k v →
      Continues p (indent l) ls vs mid → Options p mid os rest → Options p (l :: ls) ((k, v :: vs) :: os) rest

/-- `Document p ls d`: the lines `ls` give the sections `d`, each with its options -/
inductive Document (p : Parser) : List Str → List (Str × List (Str × List Str)) → Prop
  | eof : Document p [] []
  | skip {l ls d} : (Comment p l ∨ Blank l) → Document p ls d → Document p (l :: ls) d
  | sect {l ls s os rest d} : Content p l → SectionHeader l s → Options p ls os rest → Document p rest d →
      Document p (l :: ls) ((s, os) :: d)

/-- no section occurs twice, and no option occurs twice in a section -/
def Distinct (d : List (Str × List (Str × List Str))) : Prop :=
  (d.map (·.1)).Nodup ∧ ∀ e ∈ d, (e.2.map (·.1)).Nodup

/-- the value of an option with these lines: joined by newlines, trailing newlines removed -/
def value (vs : List Str) : Str := ((join ['\n'] vs).reverse.dropWhile (· = '\n')).reverse

/-- sections with their options as a configuration -/
def toConfig (d : List (Str × List (Str × List Str))) : Config := d.map (fun e => (e.1, e.2.map (fun o => (o.1, value o.2))))

/-- parsers as used in the repository: strict, empty lines allowed in values, no inline comments, delimiters of one
character -/
structure Usual (p : Parser) : Prop where
  strict : p.strict = true
  empty : p.emptyLinesInValues = true
  inline : p.inlineCommentPrefixes = []
  delims : ∀ d ∈ p.delimiters, ∃ c, d = [c]
  prefixes : ∀ c ∈ p.commentPrefixes, c ≠ []

end Python.Spec
