import Verif.Pep440.Model
/-!
Model of /repo/pkg/python/pep345/metadata.go (`Requires-Python` specifiers).  `none` in an `Option` result is a panic
(of `Cmp`, on an unknown pre-release letter); errors are `Except.error` without their text.
-/
namespace Pep345
open Go Pep440

/-- metadata.go:50-59 `CmpOp` -/
inductive Op where
  | lt | gt | le | ge | eq | ne
deriving DecidableEq, Repr

/-- metadata.go:76-79 `VersionSpecifierClause` -/
structure Clause where
  op : Op
  ver : Ver
deriving DecidableEq, Repr

/-- metadata.go:83-107: the operator switch of `parseVersionSpecifierClause` -/
def splitOp (str : Str) : Op × Str :=
  if hasPrefix str "<".toList && !hasPrefix str "<=".toList then (.lt, str.drop 1)
  else if hasPrefix str ">".toList && !hasPrefix str ">=".toList then (.gt, str.drop 1)
  else if hasPrefix str "<=".toList then (.le, str.drop 2)
  else if hasPrefix str ">=".toList then (.ge, str.drop 2)
  else if hasPrefix str "==".toList then (.eq, str.drop 2)
  else if hasPrefix str "!=".toList then (.ne, str.drop 2)
  else (.eq, str)

/-- metadata.go:80-111 `parseVersionSpecifierClause` -/
def parseClause (str : Str) : Except Unit Clause :=
  let (op, s) := splitOp (trimSpace str)
  match parseVersion s with
  | .error e => .error e
  | .ok ver => .ok { op, ver }

/-- metadata.go:30-36: the loop of `ParseVersionSpecifier` -/
def parseClauses : List Str → Except Unit (List Clause)
  | [] => .ok []
  | s :: ss => match parseClause s with
    | .error e => .error e
    | .ok c => match parseClauses ss with
      | .error e => .error e
      | .ok cs => .ok (c :: cs)

/-- metadata.go:27-38 `ParseVersionSpecifier` -/
def parseSpecifier (str : Str) : Except Unit (List Clause) := parseClauses (fieldsFunc (fun c => c = ',') str)

/-- metadata.go:129-153: the `CmpOpEQ` case of `Match` -/
def matchEQ (s ver : Ver) : Option Bool :=
  let baseOp : CmpOp := if s.loc.length > 0 ∨ s.dev.isSome then .strictMatch else .prefixMatch
  match (Pep440.Clause.mk baseOp s).match ver with
  | none => none
  | some false => some false
  | some true => some (
      if s.dev.isSome then true
      else if s.post.isSome then ver.dev.isNone
      else if s.pre.isSome then ver.dev.isNone && ver.post.isNone
      else ver.dev.isNone && ver.post.isNone && ver.pre.isNone)

/-- metadata.go:113-160 `VersionSpecifierClause.Match`; the invalid-operator panic is unreachable -/
def Clause.match (c : Clause) (ver : Ver) : Option Bool :=
  match c.op with
  | .lt =>
    let exclOp : CmpOp := if c.ver.loc.length > 0 ∨ c.ver.dev.isSome then .strictExclude else .prefixExclude
    match ver.cmp c.ver with
    | none => none
    | some d => if d < 0 then (Pep440.Clause.mk exclOp c.ver).match ver else some false
  | .le => (ver.cmp c.ver).map (fun d => decide (d ≤ 0))
  | .gt => (ver.cmp c.ver).map (fun d => decide (d > 0))
  | .ge => (ver.cmp c.ver).map (fun d => decide (d ≥ 0))
  | .eq => matchEQ c.ver ver
  | .ne => (matchEQ c.ver ver).map (!·)

/-- metadata.go:40-47 `VersionSpecifier.Match` -/
def specMatch : List Clause → Ver → Option Bool
  | [], _ => some true
  | c :: cs, v => match c.match v with
    | none => none
    | some false => some false
    | some true => specMatch cs v

/-- metadata.go:17-23 `HaveRequiredPython` -/
def haveRequiredPython (have_ : Ver) (requirement : Str) : Option (Except Unit Bool) :=
  match parseSpecifier requirement with
  | .error e => some (.error e)
  | .ok req => (specMatch req have_).map .ok

end Pep345
