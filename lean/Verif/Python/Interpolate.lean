import Verif.Python.Config
/-! Model of the part of pkg/python/configparser.go that calls `Interpolate`, for any function.  (Verif/Python/Config.lean has the part before.) -/
namespace Python
open Go

/-- `config[sect][key]`, read -/
def getOption (c : Config) (o : Str × Str) : Str := ((getKey o.1 c).bind (getKey o.2)).getD []

/-- `config[sect][key] = v`, for a section that exists -/
def putOption (c : Config) (o : Str × Str) (v : Str) : Config := setKey o.1 (setKey o.2 v ((getKey o.1 c).getD [])) c

/-- configparser.go:157-165: the two loops over the maps; the options come in the order `os`, which Go leaves open.  `interp` is the field
`Interpolate` (configparser.go:27-28); it gets the configuration as it is at the time. -/
def interpolateAll (interp : Config → Str → Except Unit Str) : Config → List (Str × Str) → Except Unit Config
  | c, [] => .ok c
  | c, o :: os => (interp c (getOption c o)).bind fun v => interpolateAll interp (putOption c o v) os

/-- configparser.go:45-168 `Parse` with the field `Interpolate`, for a reader that delivers `text`; `order` is the order in which the maps are gone
over -/
def parseInterpolated (p : Parser) (interp : Config → Str → Except Unit Str) (order : Config → List (Str × Str)) (text : Str) :
    Except Unit Config :=
  (parseConfig p text).bind fun c => interpolateAll interp c (order c)

/-- configparser.go:170-172 `NoInterpolation` -/
def noInterpolation (_ : Config) (val : Str) : Except Unit Str := .ok val

end Python
