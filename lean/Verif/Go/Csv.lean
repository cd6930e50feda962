import Verif.Go.Basic
/-!
Model of the parts of Go's `encoding/csv` that /repo uses: `Writer.WriteAll` with `UseCRLF` (recording_installs.go:123-131) and
`Reader.ReadAll` with the default settings (binary_distribution_format.go:844).  It works on texts; the bytes are their UTF-8
encoding (comma, quote, CR and LF are single bytes that occur in no other character).  Errors of the underlying stream do not
occur: both sides work on memory.
-/
namespace Go.Csv

/-! ### Writer -/

/-- `Writer.fieldNeedsQuotes` for the separator `,` -/
def needsQuotes (f : Str) : Bool :=
  match f with
  | [] => false
  | c :: _ => f == "\\.".toList || f.any (fun c => c == ',' || c == '"' || c == '\r' || c == '\n') || isSpace c

/-- `Writer.Write`: one character inside quotes, with `UseCRLF` -/
def quoteChar (c : Char) : Str :=
  if c = '"' then ['"', '"'] else if c = '\r' then [] else if c = '\n' then ['\r', '\n'] else [c]

/-- `Writer.Write`: one field -/
def writeField (f : Str) : Str :=
  if needsQuotes f then '"' :: f.flatMap quoteChar ++ ['"'] else f

/-- `Writer.Write`, with `UseCRLF` -/
def writeRecord (fs : List Str) : Str := join [','] (fs.map writeField) ++ ['\r', '\n']

/-- `Writer.WriteAll` -/
def writeAll (rows : List (List Str)) : Str := rows.flatMap writeRecord

/-! ### Reader -/

/-- `bufio.Reader.ReadSlice('\n')`: up to the first line feed, with a flag whether there is one, and the rest -/
def cutLine : Str → Str × Bool × Str
  | [] => ([], false, [])
  | c :: s =>
    if c = '\n' then ([], true, s)
    else
      let (l, b, r) := cutLine s
      (c :: l, b, r)

/-- a carriage return at the end of the line is dropped -/
def dropCR (l : Str) : Str := if l.getLast? = some '\r' then l.dropLast else l

/-- `Reader.readLine`: the line, with a line feed at its end if it had one, and the rest; at the end of the text the line is
empty -/
def readLine (s : Str) : Str × Str :=
  let (l, b, r) := cutLine s
  (if b then dropCR l ++ ['\n'] else dropCR l, r)

/-- `Reader.readRecord`: the inner loop, behind the opening quote of a field.  The result is the field, the rest of the line if
a comma follows, and the rest of the text.  Every step uses up a character of `line` and `rest`, or finds both empty, so
`line.length + rest.length + 2` steps are enough. -/
def quotedLoop : Nat → Str → Str → Str → Except Unit (Str × Option Str × Str)
  | 0, _, _, _ => .error ()
  | n + 1, line, rest, acc =>
    let pre := line.takeWhile (fun c => c != '"')
    match line.dropWhile (fun c => c != '"') with
    | _ :: more =>
      match more with
      | [] => .ok (acc ++ pre, none, rest)
      | d :: more' =>
        if d = '"' then quotedLoop n more' rest (acc ++ pre ++ ['"'])
        else if d = ',' then .ok (acc ++ pre, some more', rest)
        else if d = '\n' ∧ more' = [] then .ok (acc ++ pre, none, rest)
        else .error ()
    | [] =>
      if line = [] then .error ()
      else
        let (line', rest') := readLine rest
        quotedLoop n line' rest' (acc ++ line)

/-- a line without its line feed -/
def chomp (l : Str) : Str := if l.getLast? = some '\n' then l.dropLast else l

/-- `Reader.readRecord`: the loop over the fields.  Every field but the last uses up a comma. -/
def fieldsLoop : Nat → Str → Str → Except Unit (List Str × Str)
  | 0, _, _ => .error ()
  | n + 1, line, rest =>
    if line.head? = some '"' then
      match quotedLoop (line.length + rest.length + 2) line.tail rest [] with
      | .error e => .error e
      | .ok (f, none, rest') => .ok ([f], rest')
      | .ok (f, some line', rest') =>
        match fieldsLoop n line' rest' with
        | .error e => .error e
        | .ok (fs, r) => .ok (f :: fs, r)
    else
      let f := line.takeWhile (fun c => c != ',')
      match line.dropWhile (fun c => c != ',') with
      | _ :: line' =>
        if '"' ∈ f then .error ()
        else
          match fieldsLoop n line' rest with
          | .error e => .error e
          | .ok (fs, r) => .ok (f :: fs, r)
      | [] => if '"' ∈ chomp line then .error () else .ok ([chomp line], rest)

/-- `Reader.ReadAll`: records until the end of the text; empty lines are skipped; all records must have as many fields as the
first (`FieldsPerRecord` is 0 at the beginning).  Every step uses up a line. -/
def readLoop : Nat → Option Nat → Str → Except Unit (List (List Str))
  | 0, _, _ => .error ()
  | n + 1, want, s =>
    if s = [] then .ok []
    else
      let (line, rest) := readLine s
      if line = [] ∨ line = ['\n'] then readLoop n want rest
      else
        match fieldsLoop (line.length + rest.length + 2) line rest with
        | .error e => .error e
        | .ok (fs, rest') =>
          if want = none ∨ want = some fs.length then
            match readLoop n (some fs.length) rest' with
            | .error e => .error e
            | .ok rows => .ok (fs :: rows)
          else .error ()

/-- `csv.NewReader(…).ReadAll()` -/
def readAll (s : Str) : Except Unit (List (List Str)) := readLoop (s.length + 1) none s

end Go.Csv
