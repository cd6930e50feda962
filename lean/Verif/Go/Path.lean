import Verif.Go.Basic
/-!
Go's `path` package (slash-separated paths), at the level of path elements.  The standard library is not part of the
code under study; these definitions follow its documentation (`Clean`: "the shortest path name equivalent to path by
purely lexical processing", rules 1-4).
-/
namespace Go

/-- one element of `path.Clean`: `st` the elements kept so far, last first -/
def cleanStep (rooted : Bool) (st : List Str) (c : Str) : List Str :=
  if c = [] ∨ c = ['.'] then st
  else if c = ['.', '.'] then
    match st with
    | [] => if rooted then [] else [['.', '.']]
    | d :: ds => if d = ['.', '.'] then ['.', '.'] :: d :: ds else ds
  else c :: st

/-- the elements of the cleaned path -/
def cleanElems (rooted : Bool) (cs : List Str) : List Str := (cs.foldl (cleanStep rooted) []).reverse

/-- `path.IsAbs` -/
def isRooted (s : Str) : Bool := s.head? = some '/'

/-- write a path from its elements -/
def render (rooted : Bool) (cs : List Str) : Str :=
  if rooted then '/' :: join ['/'] cs else if cs = [] then ['.'] else join ['/'] cs

/-- `path.Clean` -/
def clean (s : Str) : Str := render (isRooted s) (cleanElems (isRooted s) (split '/' s))

/-- `path.Join` -/
def pathJoin (elems : List Str) : Str :=
  match elems.filter (· ≠ []) with
  | [] => []
  | es => clean (join ['/'] es)

/-- `path.Split`: (up to and including the last slash, the rest) -/
def pathSplit (s : Str) : Str × Str :=
  ((s.reverse.dropWhile (· ≠ '/')).reverse, (s.reverse.takeWhile (· ≠ '/')).reverse)

/-- `path.Dir` -/
def pathDir (s : Str) : Str := clean (pathSplit s).1

/-- `path.Base` -/
def pathBase (s : Str) : Str :=
  if s = [] then ['.']
  else
    let t := (s.reverse.dropWhile (· = '/')).reverse
    let b := (pathSplit t).2
    if b = [] then ['/'] else b

end Go
