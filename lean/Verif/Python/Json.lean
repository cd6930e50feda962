import Verif.Go.Basic

/-!
Model of `jsonDumps` (/repo/pkg/python/pypa/direct_url/json.go 11-83) and of the
`DirectURL` structure it is used on (/repo/pkg/python/pypa/direct_url/direct_url.go 14-35).

Trusted boundary: `encoding/json`.  `json.Marshal`, `json.Unmarshal` into an untyped value and
`json.Marshal` again yield a document; the model starts from that document as a tree whose leaves
(strings, numbers, `true`, `false`, `null`) and member names are given by their JSON text.
`json.Decoder.Token` walks that tree in document order, and `json.Marshal` of a scalar token gives
back the text of that scalar (the document was itself written by `json.Marshal`).
-/

namespace Python.Json
open Go

/-- The untyped JSON document (json.go 17-24): `scalar` and the member names carry their JSON
text, quotes and escapes included. -/
inductive Value where
  | scalar (text : Str)
  | arr (elems : List Value)
  | obj (members : List (Str × Value))

/-- What `json.Decoder.Token` returns (json.go 41): a delimiter or a scalar, the latter with the
text `json.Marshal` gives for it (json.go 70-73). -/
inductive Token where
  | open_ (c : Char)
  | close (c : Char)
  | scalar (text : Str)
  deriving DecidableEq

mutual
/-- The token stream of a document, in document order (encoding/json `Decoder.Token`; commas and
colons are not tokens). -/
def tokens : Value → List Token
  | .scalar t => [.scalar t]
  | .arr vs => .open_ '[' :: (tokensArr vs ++ [.close ']'])
  | .obj ms => .open_ '{' :: (tokensObj ms ++ [.close '}'])
/-- Tokens of the elements of an array. -/
def tokensArr : List Value → List Token
  | [] => []
  | v :: vs => tokens v ++ tokensArr vs
/-- Tokens of the members of an object: name, then value. -/
def tokensObj : List (Str × Value) → List Token
  | [] => []
  | (k, v) :: ms => .scalar k :: (tokens v ++ tokensObj ms)
end

/-- The state of the loop: `mapStack` with its last element first, and the output so far
(json.go 26-29). -/
structure State where
  stack : List Int
  dst : Str
  deriving DecidableEq

/-- `completeObj` (json.go 29-38).  An empty stack would be an index out of range: `none`.
Go's `%` truncates toward zero: `Int.tmod`. -/
def completeObj (s : State) : Option State :=
  match s.stack with
  | [] => none
  | top :: rest =>
    if top < 0 then some { s with stack := (top - 1) :: rest }
    else some { stack := (top + 1) :: rest
                dst := if top.tmod 2 = 1 then s.dst ++ [':', ' '] else s.dst }

/-- One turn of the token loop (json.go 49-80). -/
def step (s : State) : Token → Option State
  | .open_ '[' => some { stack := -1 :: s.stack, dst := s.dst ++ ['['] }
  | .open_ c => some { stack := 1 :: s.stack, dst := s.dst ++ [c] }
  | .close c =>
    match s.stack with
    | [] => none
    | _ :: rest =>
      (completeObj { s with stack := rest }).map fun s' => { s' with dst := s'.dst ++ [c] }
  | .scalar t =>
    match s.stack with
    | [] => none
    | top :: _ =>
      let sep : Str :=
        if top < -1 then [',', ' ']
        else if top > 1 ∧ top.tmod 2 = 1 then [',', ' ']
        else []
      completeObj { s with dst := s.dst ++ sep ++ t }

/-- The token loop (json.go 40-80). -/
def run (s : State) : List Token → Option State
  | [] => some s
  | t :: ts => (step s t).bind fun s' => run s' ts

/-- `jsonDumps` (json.go 11-83) from the untyped document on. -/
def jsonDumps (v : Value) : Option Str :=
  (run { stack := [-1], dst := [] } (tokens v)).map State.dst

/-- `VCSInfo` (direct_url.go 21-25); the fields carry the JSON text of the strings. -/
structure VCSInfo where
  vcs : Str
  requestedRevision : Option Str
  commitID : Str

/-- `DirectURL` (direct_url.go 14-19) with `ArchiveInfo` (27-29) and `DirInfo` (31-33).
Strings are given by their JSON text; `none` for a field with `omitempty` that is empty. -/
structure DirectURL where
  url : Str
  vcsInfo : Option VCSInfo
  archiveInfo : Option (Option Str)
  dirInfo : Option Bool

/-- `"name"` -/
def quote (s : Str) : Str := '"' :: (s ++ ['"'])

/-- The untyped document of a `DirectURL` (json.go 17-24; direct_url.go 14-33): the members are in
the order of their names, since `json.Marshal` sorts the keys of a map. -/
def DirectURL.doc (d : DirectURL) : Value :=
  .obj
    ((match d.archiveInfo with
      | none => []
      | some none => [(quote "archive_info".toList, .obj [])]
      | some (some h) => [(quote "archive_info".toList, .obj [(quote "hash".toList, .scalar h)])]) ++
     (match d.dirInfo with
      | none => []
      | some false => [(quote "dir_info".toList, .obj [])]
      | some true => [(quote "dir_info".toList,
          .obj [(quote "editable".toList, .scalar "true".toList)])]) ++
     [(quote "url".toList, .scalar d.url)] ++
     (match d.vcsInfo with
      | none => []
      | some i => [(quote "vcs_info".toList,
          .obj ([(quote "commit_id".toList, .scalar i.commitID)] ++
            (match i.requestedRevision with
             | none => []
             | some r => [(quote "requested_revision".toList, .scalar r)]) ++
            [(quote "vcs".toList, .scalar i.vcs)]))]))

end Python.Json
