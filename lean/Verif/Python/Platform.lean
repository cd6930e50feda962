import Verif.Pep440.Model
import Verif.Go.Path
/-! Model of pkg/python/platform.go. -/
namespace Python
open Go Pep440

/-- platform.go:29-35 `VersionInfo` -/
structure VersionInfo where
  major : Int
  minor : Int
  micro : Int
  releaseLevel : Str
  serial : Int

/-- platform.go:37-58 `PEP440` -/
def VersionInfo.pep440 (vi : VersionInfo) : Except Unit Ver :=
  let release := [vi.major, vi.minor, vi.micro]
  let mk (pre : Option (Str × Int)) : Ver := { epoch := 0, release := release, pre := pre, post := none, dev := none, loc := [] }
  if vi.releaseLevel = "alpha".toList then .ok (mk (some ("a".toList, 0)))
  else if vi.releaseLevel = "beta".toList then .ok (mk (some ("b".toList, 0)))
  else if vi.releaseLevel = "candidate".toList then .ok (mk (some ("rc".toList, 0)))
  else if vi.releaseLevel = "final".toList then .ok (mk none)
  else .error ()

/-- platform.go:60-69 `Scheme` -/
structure Scheme where
  pureLib : Str
  platLib : Str
  headers : Str
  scripts : Str
  data : Str
deriving DecidableEq

/-- platform.go:11-27 `Platform`: the fields used by the modelled code -/
structure Platform where
  consoleShebang : Str
  graphicalShebang : Str
  scheme : Scheme
  uid : Int
  gid : Int
  uname : Str
  gname : Str
deriving DecidableEq

/-- platform.go:72-97 `Init` -/
def Platform.init (p : Platform) : Except Unit Platform :=
  if p.consoleShebang = [] ∧ p.graphicalShebang = [] then .error ()
  else
    let p := if p.consoleShebang = [] then { p with consoleShebang := p.graphicalShebang } else p
    let p := if p.graphicalShebang = [] then { p with graphicalShebang := p.consoleShebang } else p
    if [p.scheme.pureLib, p.scheme.platLib, p.scheme.headers, p.scheme.scripts, p.scheme.data].all isRooted then .ok p else .error ()

end Python
