import Verif.Repo.Client
/-!
`HTMLVersionCheck` of /repo/pkg/python/pep629/simple_api_versions.go with the warnings that it writes, and reading a page of the
index with it.
-/
namespace Repo
open Go

/-- the text of the warning, simple_api_versions.go:55; a panic of `String` would be caught by fmt (here nothing is printed), but versions
that were read have a printed form -/
def newerMessage (v : Pep440.Ver) : Str :=
  "server's pypi:repository version (".toList ++ v.string.getD [] ++ ") is newer than this client".toList

/-- simple_api_versions.go:46-58 `HTMLVersionCheck`: what is written to the log, and the result.  `SupportedVersion` (line 18) is 1.0, its
major number 1, its minor number 0. -/
def versionCheckLog (doc : Node) : List Str × Except Unit Unit :=
  match getVersion doc with
  | .error e => ([], .error e)
  | .ok v =>
    if v.toPubVer.major > 1 then ([], .error ())
    else if v.toPubVer.minor > 0 then ([newerMessage v], .ok ())
    else ([], .ok ())

/-- simple_repo_api.go:140-192 `getHTML5Index` with this function as `HTMLHook` (pypa_repo_api.go:33): what is written to the log, and the
result -/
def Net.indexLog (net : Net) (url : Str) : List Str × Except Unit (List Link) :=
  match (net.get url).2 with
  | .error e => ([], .error e)
  | .ok (loc, content) => match net.parse content with
    | none => ([], .error ())
    | some doc => ((versionCheckLog doc).1, indexLinks (fun d => (versionCheckLog d).2) (net.resolve loc) doc)

end Repo
