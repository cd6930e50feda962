import Verif.Pep440.Grammar
/-!
The grammar of PEP 440's version specifiers (section "Version specifiers"), as relations between a text and the clauses
it means.  Nothing here refers to the model's parser.
-/
namespace Pep440.Spec
open Go

/-- only white space (Unicode) -/
def Space (s : Str) : Prop := ∀ c ∈ s, isSpace c = true

/-- the operators that stand before a version -/
def operators : List (CmpOp × Str) :=
  [(.compatible, "~=".toList), (.strictMatch, "==".toList), (.strictExclude, "!=".toList), (.le, "<=".toList),
   (.ge, ">=".toList), (.lt, "<".toList), (.gt, ">".toList)]

/-- the operators that stand before a version followed by `.*` -/
def wildOperators : List (CmpOp × Str) := [(.prefixMatch, "==".toList), (.prefixExclude, "!=".toList)]

/-- the text `w` is the clause `c`.  `~=` needs two release numbers; a local label is allowed only with `==` and `!=`;
before `.*` there is neither a local label nor a developmental release, nor a blank. -/
inductive ClauseText : Str → Clause → Prop where
  | plain {op o t v} : (op, o) ∈ operators → Reads t v → (op = .compatible → 2 ≤ v.release.length) →
      (v.loc ≠ [] → op = .strictMatch ∨ op = .strictExclude) → ClauseText (o ++ t) ⟨op, v⟩
  | wild {op o t v} : (op, o) ∈ wildOperators → Reads t v → v.dev = none → v.loc = [] →
      (∀ a d, t = a ++ [d] → ¬ Blank [d]) → ClauseText (o ++ t ++ ".*".toList) ⟨op, v⟩

/-- between two commas: nothing but white space, or a clause surrounded by white space -/
def PartText (p : Str) (cs : List Clause) : Prop :=
  (Space p ∧ cs = []) ∨ ∃ a t b c, p = a ++ t ++ b ∧ Space a ∧ Space b ∧ ClauseText t c ∧ cs = [c]

/-- the text `s` is the list of clauses `cs`: separated by commas, in order -/
inductive SpecifierText : Str → List Clause → Prop where
  | one {p cs} : ',' ∉ p → PartText p cs → SpecifierText p cs
  | more {p cs t ds} : ',' ∉ p → PartText p cs → SpecifierText t ds → SpecifierText (p ++ ',' :: t) (cs ++ ds)

end Pep440.Spec
