import Verif.Squash.Model
/-! Model of how pkg/squash reads layers that may fail to be read, and of writing a layer with a `tar.Writer` that may fail:
readlayer.go `parseLayer`, squash.go `loadLayers`, `Load` and `Squash`. -/
namespace Squash.Stream
open Go

/-- an entry as `tar.Reader` delivers it: the header, and what reading the content to its end gives -/
structure Item where
  header : Header
  body : Except Unit Bytes

/-- a layer as `Uncompressed()` and a `tar.Reader` on it deliver it: whether it can be opened; the entries; whether the `Next` after the
last one is `io.EOF` (or another error); whether what follows in the stream, behind the end of the archive, can be read to its end; and
whether `Close` succeeds.  Simplified: what the entries are does not depend on how much of their contents is read. -/
structure Layer where
  opens : Bool
  items : List Item
  ends : Bool
  rest : Bool
  closes : Bool

/-- readlayer.go:37-72: the loop, with the error of `Next` after the last entry.  `io.Copy` to `io.Discard` and `io.ReadAll` both read
the content to its end. -/
def parseItems (omitContent ends : Bool) : List Item → Except Unit (List Entry × List Entry)
  | [] => if ends then .ok ([], []) else .error ()
  | i :: is =>
    let cleanName := clean i.header.name
    if outside cleanName then .error ()
    else match i.body with
      | .error e => .error e
      | .ok b =>
        let entry : Entry := ⟨{ i.header with name := cleanName }, if omitContent then [] else b⟩
        match parseItems omitContent ends is with
        | .error x => .error x
        | .ok (ws, fs) => if hasPrefix (pathBase cleanName) whPrefix then .ok (entry :: ws, fs) else .ok (ws, entry :: fs)

/-- readlayer.go:28-74 `parseLayer`; the result of `Close` is dropped (line 34), and nothing is read behind the end of the archive -/
def parseLayer (omitContent : Bool) (l : Layer) : Except Unit (List Entry × List Entry) :=
  if l.opens then parseItems omitContent l.ends l.items else .error ()

/-- squash.go:22-45: the loop of `loadLayers` -/
def loadFrom (n : Nat) (omitContent : Bool) : FS → List Layer → Res FS
  | S, [] => some (.ok S)
  | S, l :: ls => match parseLayer omitContent l with
    | .error x => some (.error x)
    | .ok (ws, fs) => (addEntries n S ws).bind fun S => (addEntries n S fs).bind fun S => loadFrom n omitContent S ls

/-- squash.go:16-47 `loadLayers`, 79-86 `Load` -/
def load (n : Nat) (layers : List Layer) (omitContent : Bool) : Res FS := loadFrom n omitContent emptyFS layers

/-- squash.go:63-70: writing the entries; `accepts` tells which headers with which contents the `tar.Writer` takes, `closes` whether its
`Close` succeeds -/
def write (accepts : Entry → Bool) (closes : Bool) (es : List Entry) : Except Unit (List Entry) :=
  if es.all accepts && closes then .ok es else .error ()

/-- squash.go:55-77 `Squash` -/
def squash (n : Nat) (sortSlice : (Str → Str → Bool) → List Str → List Str) (order : Path → List Str → List Str) (accepts : Entry → Bool)
    (closes : Bool) (layers : List Layer) : Res (List Entry) :=
  (load n layers false).bind fun S => some (write accepts closes (writeTo sortSlice order S (depth S) []))

end Squash.Stream
