import Verif.Repo.Model
/-!
Model of the parts of /repo/pkg/python/pep503/simple_repo_api.go that talk to a server, and of
/repo/cmd_python_getwheel.go.  Functions that make requests return the URLs that they requested, in order, next to their result.
-/
namespace Repo
open Go

/-- the world outside: `HTTPClient.Do` with reading and closing the body (the URL after redirects and the response; `none` is
an error), the fragment of a URL (`none` if the URL does not parse), `url.QueryUnescape`, the digest functions, the iteration order of
the map of checksums, `html.Parse`, resolving a reference against a location followed by `String`, the path of a URL (`none` if
the URL does not parse), and a URL with its path replaced -/
structure Net where
  doReq : Str → Option (Str × Response)
  fragment : Str → Option Str
  unescape : Str → Option Str
  digest : Str → List UInt8 → Str
  order : List (Str × Str) → List (Str × Str)
  parse : List UInt8 → Option Node
  resolve : Str → Str → Option Str
  urlPath : Str → Option Str
  withPath : Str → Str → Str

/-- simple_repo_api.go:37-47 `fillDefaults`, for BaseURL (the other two are in `doReq`) -/
def fillBase (base : Str) : Str := if base = [] then "https://pypi.org/simple/".toList else base

/-- simple_repo_api.go:58-113 `get`, with the location it returns -/
def Net.get (net : Net) (url : Str) : List Str × Except Unit (Str × List UInt8) :=
  ([url], match Repo.get (fun u => (net.doReq u).map (·.2)) net.fragment net.unescape net.digest net.order url, net.doReq url with
    | .ok body, some (loc, _) => .ok (loc, body)
    | _, _ => .error ())

/-- simple_repo_api.go:140-192 `getHTML5Index` -/
def Net.index (net : Net) (hook : Node → Except Unit Unit) (url : Str) : List Str × Except Unit (List Link) :=
  match net.get url with
  | (reqs, .error e) => (reqs, .error e)
  | (reqs, .ok (loc, content)) => match net.parse content with
    | none => (reqs, .error ())
    | some doc => (reqs, indexLinks hook (net.resolve loc) doc)

/-- simple_repo_api.go:199-213 `ListPackages` -/
def Net.listPackages (net : Net) (hook : Node → Except Unit Unit) (base : Str) : List Str × Except Unit (List Link) :=
  net.index hook (fillBase base)

/-- simple_repo_api.go:220-233 `ListFiles` -/
def Net.listFiles (net : Net) (hook : Node → Except Unit Unit) (l : Link) : List Str × Except Unit (List Link) :=
  net.index hook l.href

/-- simple_repo_api.go:239-281 `ListPackageFiles`; outer `none` is a panic of the version comparison -/
def Net.listPackageFiles (net : Net) (hook : Node → Except Unit Unit) (python : Option Pep440.Ver) (base pkgname : Str) :
    List Str × Option (Except Unit (List Link)) :=
  if pkgname.all validNameChar then
    match net.urlPath (fillBase base) with
    | none => ([], some (.error ()))
    | some p => match requestPath p pkgname with
      | .error e => ([], some (.error e))
      | .ok q => match net.index hook (net.withPath (fillBase base) q) with
        | (reqs, .error e) => (reqs, some (.error e))
        | (reqs, .ok raw) => match filterLinks python raw with
          | none => (reqs, none)
          | some links => (reqs, some (.ok links))
  else ([], some (.error ()))

/-- simple_repo_api.go:283-286 `FileLink.Get` -/
def Net.getFile (net : Net) (l : Link) : List Str × Except Unit (List UInt8) :=
  match net.get l.href with
  | (reqs, .error e) => (reqs, .error e)
  | (reqs, .ok (_, content)) => (reqs, .ok content)

/-- the result of `GetSignature`; `noSignature` is `ErrNoSignature` -/
inductive Signature where
  | ok (content : List UInt8)
  | noSignature
  | error
deriving DecidableEq

/-- simple_repo_api.go:290-305 `GetSignature`.  The error of `get` is an `HTTPError` with status 404 exactly if there was a response
with that status. -/
def Net.getSignature (net : Net) (l : Link) : List Str × Signature :=
  if l.attr "data-gpg-sig".toList = some "false".toList then ([], .noSignature)
  else match net.getFile l with
    | (reqs, .ok content) => (reqs, .ok content)
    | (reqs, .error _) =>
      if l.attr "data-gpg-sig".toList = some "true".toList then (reqs, .error)
      else match net.doReq l.href with
        | some (_, r) => (reqs, if r.status = 404 then .noSignature else .error)
        | none => (reqs, .error)

/-- cmd_python_getwheel.go:45-57: the first link with this text -/
def pickLink (net : Net) (filename : Str) : List Link → List Str × Except Unit (List UInt8)
  | [] => ([], .error ())
  | l :: ls => if l.text = filename then net.getFile l else pickLink net filename ls

/-- cmd_python_getwheel.go:34-59: `ocibuild python getwheel --index-server=base filename`; the result is what is written to
standard output (simplified: writing succeeds).  `NewClient(nil, nil)` has no Python version, so that no link is filtered and the
filter does not panic. -/
def getwheel (net : Net) (base filename : Str) : List Str × Except Unit (List UInt8) :=
  match Bdist.parseFilename filename with
  | .error e => ([], .error e)
  | .ok info => match net.listPackageFiles htmlVersionCheck none base info.distribution with
    | (reqs, none) => (reqs, .error ())
    | (reqs, some (.error e)) => (reqs, .error e)
    | (reqs, some (.ok links)) => match pickLink net filename links with
      | (more, r) => (reqs ++ more, r)

end Repo
