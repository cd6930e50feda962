import Verif.Bdist.Filename
import Verif.Pep345.Model
import Verif.Go.Path
/-!
Model of the simple repository client: /repo/pkg/python/pep503/simple_repo_api.go, /repo/pkg/python/pep592/yank.go,
/repo/pkg/python/pep629/simple_api_versions.go, /repo/pkg/htmlutil/htmlutil.go and
/repo/pkg/python/pypa/simple_repo_api/pypa_repo_api.go.
-/
namespace Repo
open Go

/-! ### HTML -/

/-- `html.NodeType`, as far as the code distinguishes them -/
inductive Kind where
  | element | text | other
deriving DecidableEq, Repr

/-- `html.Attribute` -/
structure Attr where
  ns : Str
  key : Str
  val : Str
deriving DecidableEq, Repr

/-- `html.Node`; the sibling links as a list of children -/
inductive Node where
  | mk (kind : Kind) (data : Str) (attrs : List Attr) (children : List Node)

/-- `n.Type` -/
def Node.kind : Node → Kind | .mk k _ _ _ => k
/-- `n.Data` -/
def Node.data : Node → Str | .mk _ d _ _ => d
/-- `n.Attr` -/
def Node.attrs : Node → List Attr | .mk _ _ a _ => a
/-- `n.FirstChild` and its siblings -/
def Node.children : Node → List Node | .mk _ _ _ c => c

mutual
/-- htmlutil.go:7-24 `VisitHTML` and the identical pep503/simple_repo_api.go:115-132 `visitHTML`, with `before == nil`
(all callers); the variables the callback assigns are the state `σ` -/
def visitHTML {σ : Type} (after : σ → Node → Except Unit σ) (s : σ) : Node → Except Unit σ
  | .mk k d a cs => match visitList after s cs with
    | .error e => .error e
    | .ok s' => after s' (.mk k d a cs)
/-- the loop over the children -/
def visitList {σ : Type} (after : σ → Node → Except Unit σ) (s : σ) : List Node → Except Unit σ
  | [] => .ok s
  | n :: ns => match visitHTML after s n with
    | .error e => .error e
    | .ok s' => visitList after s' ns
end

/-- htmlutil.go:26-36 `GetAttr` -/
def getAttr (n : Node) (ns name : Str) : Option Str :=
  (n.attrs.find? (fun a => a.ns = ns ∧ a.key = name)).map (·.val)

/-! ### PEP 629 -/

/-- the callback of `GetVersion`, simple_api_versions.go:22-35 -/
def versionNode (verStr : Str) (n : Node) : Except Unit Str :=
  if n.kind ≠ .element ∨ n.data ≠ "meta".toList then .ok verStr
  else if (getAttr n [] "name".toList).getD [] ≠ "pypi:repository-version".toList then .ok verStr
  else match getAttr n [] "content".toList with
    | some v => .ok v
    | none => .ok verStr

/-- simple_api_versions.go:20-44 `GetVersion` -/
def getVersion (doc : Node) : Except Unit Pep440.Ver :=
  match visitHTML versionNode [] doc with
  | .error e => .error e
  | .ok verStr => Pep440.parseVersion (if verStr = [] then "1.0".toList else verStr)

/-- simple_api_versions.go:46-58 `HTMLVersionCheck`; `SupportedVersion` (line 18) is 1.0, its major number 1; the
warning for a newer minor version is in `Verif/Repo/Warn.lean` -/
def htmlVersionCheck (doc : Node) : Except Unit Unit :=
  match getVersion doc with
  | .error e => .error e
  | .ok v => if v.toPubVer.major > 1 then .error () else .ok ()

/-! ### PEP 503 -/

/-- simple_repo_api.go:134-138 `Link` (embedded in `FileLink`, 215-218; the client it carries is a parameter).
`DataAttrs` is an association list, most recent assignment first. -/
structure Link where
  text : Str
  href : Str
  data : List (Str × Str)
deriving DecidableEq, Repr

/-- `l.DataAttrs[key]` with the presence flag -/
def Link.attr (l : Link) (key : Str) : Option Str := (l.data.find? (fun p => p.1 = key)).map (·.2)

/-- one attribute of an `a` element, simple_repo_api.go:165-176; `resolve` is `location.Parse(…)` followed by
`String` -/
def linkAttr (resolve : Str → Option Str) (l : Link) (a : Attr) : Except Unit Link :=
  if a.ns = [] ∧ a.key = "href".toList then
    match resolve a.val with
    | none => .error ()
    | some h => .ok { l with href := h }
  else if a.ns = [] ∧ hasPrefix a.key "data-".toList then .ok { l with data := (a.key, a.val) :: l.data }
  else .ok l

/-- simple_repo_api.go:165-176: the loop over the attributes -/
def linkAttrs (resolve : Str → Option Str) (l : Link) : List Attr → Except Unit Link
  | [] => .ok l
  | a :: as => match linkAttr resolve l a with
    | .error e => .error e
    | .ok l' => linkAttrs resolve l' as

/-- the text below a node, simple_repo_api.go:177-184 -/
def textOf (n : Node) : Str :=
  match visitHTML (fun (t : Str) c => .ok (if c.kind = .text then t ++ c.data else t)) [] n with
  | .ok t => t
  | .error _ => []

/-- the callback of `getHTML5Index`, simple_repo_api.go:158-187 -/
def linkNode (resolve : Str → Option Str) (links : List Link) (n : Node) : Except Unit (List Link) :=
  if n.kind ≠ .element ∨ n.data ≠ "a".toList then .ok links
  else match linkAttrs resolve { text := [], href := [], data := [] } n.attrs with
    | .error e => .error e
    | .ok l => .ok (links ++ [{ l with text := textOf n }])

/-- `getHTML5Index` after the page has been fetched and parsed, simple_repo_api.go:151-191; `hook` is the HTMLHook -/
def indexLinks (hook : Node → Except Unit Unit) (resolve : Str → Option Str) (doc : Node) : Except Unit (List Link) :=
  match hook doc with
  | .error e => .error e
  | .ok () => visitHTML (linkNode resolve) [] doc

/-- simple_repo_api.go:235-237 `normalize` -/
def normalize (s : Str) : Str := toLower (Bdist.collapse Bdist.isNameSep '-' false s)

/-- the character test of simple_repo_api.go:243-248 -/
def validNameChar (c : Char) : Bool :=
  ('a' ≤ c && c ≤ 'z') || ('A' ≤ c && c ≤ 'Z') || ('0' ≤ c && c ≤ '9') || c = '.' || c = '-' || c = '_'

/-- the path requested by `ListPackageFiles`, simple_repo_api.go:242-259; `basePath` is the path of the parsed
BaseURL -/
def requestPath (basePath pkgname : Str) : Except Unit Str :=
  if pkgname.all validNameChar then .ok (pathJoin [basePath, normalize pkgname]) else .error ()

/-- one link of the filter of `ListPackageFiles`, simple_repo_api.go:266-273; `none` is a panic of the version
comparison -/
def keepLink (python : Option Pep440.Ver) (l : Link) : Option Bool :=
  match python with
  | none => some true
  | some py =>
    let reqPy := (l.attr "data-requires-python".toList).getD []
    if reqPy ≠ [] then
      match Pep345.haveRequiredPython py reqPy with
      | none => none
      | some (.ok false) => some false
      | some _ => some true
    else some true

/-- the loop of `ListPackageFiles`, simple_repo_api.go:264-280 -/
def filterLinks (python : Option Pep440.Ver) : List Link → Option (List Link)
  | [] => some []
  | l :: ls => match keepLink python l with
    | none => none
    | some k => match filterLinks python ls with
      | none => none
      | some r => some (if k then l :: r else r)

/-- `http.Response` as far as `get` looks at it -/
structure Response where
  status : Nat
  body : List UInt8

/-- one `key=value` of `url.ParseQuery`; `.error` is the error that makes the whole result unusable for `get`,
`.ok none` an empty part.  `unescape` is `url.QueryUnescape`. -/
def queryPart (unescape : Str → Option Str) (part : Str) : Except Unit (Option (Str × Str)) :=
  if part.contains ';' then .error ()
  else if part = [] then .ok none
  else
    let k := part.takeWhile (· ≠ '=')
    let v := (part.dropWhile (· ≠ '=')).drop 1
    match unescape k, unescape v with
    | some k', some v' => .ok (some (k', v'))
    | _, _ => .error ()

/-- `url.ParseQuery` (standard library): all pairs in order, or an error if any part is malformed -/
def parseQuery (unescape : Str → Option Str) : List Str → Except Unit (List (Str × Str))
  | [] => .ok []
  | p :: ps => match queryPart unescape p, parseQuery unescape ps with
    | .ok none, .ok r => .ok r
    | .ok (some kv), .ok r => .ok (kv :: r)
    | _, _ => .error ()

/-- the checks of `get`, simple_repo_api.go:93-108, in the order `kvs` the map iteration yields them; `hashers` is
`HashlibAlgorithmsGuaranteed` (hashlib.go:14-30) followed by `hex.EncodeToString` -/
def checkSums (hashers : Str → Option (List UInt8 → Str)) (content : List UInt8) : List (Str × Str) → Except Unit Unit
  | [] => .ok ()
  | (k, v) :: kvs => match hashers k with
    | none => checkSums hashers content kvs
    | some h => if h content ≠ v then .error () else checkSums hashers content kvs

/-- hashlib.go:14-30: the algorithms known -/
def hashNames : List Str :=
  ["md5".toList, "sha1".toList, "sha224".toList, "sha256".toList, "sha384".toList, "sha512".toList]

/-- `HashlibAlgorithmsGuaranteed` as a lookup; `digest` stands for the six hash functions and hex encoding -/
def hashers (digest : Str → List UInt8 → Str) (name : Str) : Option (List UInt8 → Str) :=
  if name ∈ hashNames then some (digest name) else none

/-- simple_repo_api.go:58-113 `get`.  Parameters: `doReq` the HTTP exchange including reading and closing the body
(`none` an error), `fragment` the decoded fragment of the URL (`none` if the URL does not parse), `unescape`, the digest
functions, and `order` the iteration order of the map `keyvals`. -/
def get (doReq : Str → Option Response) (fragment : Str → Option Str) (unescape : Str → Option Str)
    (digest : Str → List UInt8 → Str) (order : List (Str × Str) → List (Str × Str)) (url : Str) :
    Except Unit (List UInt8) :=
  match doReq url with
  | none => .error ()
  | some resp =>
    if resp.status ≠ 200 then .error ()
    else match fragment url with
      | none => .ok resp.body
      | some frag =>
        if frag = [] then .ok resp.body
        else match parseQuery unescape (split '&' frag) with
          | .error _ => .ok resp.body
          | .ok kvs => match checkSums (hashers digest) resp.body (order kvs) with
            | .error e => .error e
            | .ok () => .ok resp.body

/-! ### PEP 592 -/

/-- yank.go:12-15 `IsYanked` -/
def isYanked (l : Link) : Bool := (l.attr "data-yanked".toList).isSome

/-- yank.go:21-35 `ExcludeYanked`: the set of version strings; `none` is a panic of `Version.String` -/
def yankedVersions : List Link → Option (List Str)
  | [] => some []
  | l :: ls =>
    if isYanked l then
      match Bdist.parseFilename l.text with
      | .error _ => yankedVersions ls
      | .ok info => match info.version.string, yankedVersions ls with
        | some s, some r => some (s :: r)
        | _, _ => none
    else yankedVersions ls

/-- yank.go:37-40 `excludeYanked.Allow` -/
def yankedAllow (yanked : List Str) : Pep440.Excl := fun v => v.string.map (fun s => decide (s ∈ yanked))

/-! ### SelectWheel -/

/-- the first loop of `SelectWheel`, pypa_repo_api.go:50-64: for every link that is kept, its version string, itself
and its version.  `version2links[k]` is the links with key `k`, in order; `whlLinks` and `versions` are the
projections. -/
def usable (tags : List Pep425.Tag) : List Link → Option (List (Str × Link × Pep440.Ver))
  | [] => some []
  | l :: ls => match Bdist.parseFilename l.text with
    | .error _ => usable tags ls
    | .ok info =>
      if Pep425.supports tags info.tag then
        match info.version.string, usable tags ls with
        | some s, some r => some ((s, l, info.version) :: r)
        | _, _ => none
      else usable tags ls

/-- the compatibility tag `linkInfo.CompatibilityTag` of a link whose name parses; a parse failure would be a nil
dereference (`none`) -/
def linkInfo (l : Link) : Option Bdist.FileNameData :=
  match Bdist.parseFilename l.text with | .ok i => some i | .error _ => none

/-- the second loop, pypa_repo_api.go:80-92; state (minRank, minList) -/
def rankLoop (tags : List Pep425.Tag) : Nat → List Link → List Link → Option (List Link)
  | _, minList, [] => some minList
  | minRank, minList, l :: ls => match linkInfo l with
    | none => none
    | some info =>
      let rank := Pep425.preference tags info.tag
      if minRank = 0 ∨ rank < minRank then rankLoop tags rank [l] ls
      else if rank = minRank then rankLoop tags minRank (minList ++ [l]) ls
      else rankLoop tags minRank minList ls

/-- the `less` of the sort, pypa_repo_api.go:99-103; links whose name does not parse do not occur -/
def buildLess (a b : Link) : Bool :=
  match linkInfo a, linkInfo b with
  | some i, some j => decide (Bdist.buildCmp i.build j.build < 0)
  | _, _ => false

/-- pypa_repo_api.go:104-105: the first link of a slice; `none` if it is empty (a panic) -/
def firstLink : List Link → Option (Except Unit Link)
  | [] => none
  | l :: _ => some (.ok l)

/-- pypa_repo_api.go:94-105: the only link, or the first after sorting by build tag -/
def pickBuild (sortSlice : (Link → Link → Bool) → List Link → List Link) : List Link → Option (Except Unit Link)
  | [l] => some (.ok l)
  | links => firstLink (sortSlice buildLess links)

/-- pypa_repo_api.go:74-105: the only link, or the best by tag and build tag -/
def pickRank (sortSlice : (Link → Link → Bool) → List Link → List Link) (tags : List Pep425.Tag) :
    List Link → Option (Except Unit Link)
  | [l] => some (.ok l)
  | links => (rankLoop tags 0 [] links).bind (pickBuild sortSlice)

/-- pypa_repo_api.go:43-106 `SelectWheel`, given the result of `ListPackageFiles`; `sortSlice` is `sort.Slice`.
Outer `none` is a panic. -/
def selectWheel (sortSlice : (Link → Link → Bool) → List Link → List Link) (tags : List Pep425.Tag)
    (links : List Link) (spec : Pep440.Specifier) : Option (Except Unit Link) :=
  match usable tags links with
  | none => none
  | some us =>
    match yankedVersions (us.map (·.2.1)) with
    | none => none
    | some yanked =>
      match Pep440.select spec (us.map (·.2.2))
          (some (Pep440.multiExcluder [Pep440.excludePreReleases [], yankedAllow yanked])) with
      | none => none
      | some none => some (.error ())
      | some (some sel) =>
        match sel.string with
        | none => none
        | some key => pickRank sortSlice tags ((us.filter (fun u => u.1 = key)).map (·.2.1))

end Repo
