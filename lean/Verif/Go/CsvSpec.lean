import Verif.Go.Basic
/-!
RFC 4180, as relations between a text and the rows it stands for.  Nothing here refers to the model of `encoding/csv`.  As the
files in wheels do, a line may also end in a bare line feed.
-/
namespace Go.Csv.Spec

/-- a field: as it is, if it has no comma, quote or line break; or in quotes, with its quotes doubled -/
def FieldText (w f : Str) : Prop :=
  (w = f ∧ ∀ c ∈ f, c ∉ [',', '"', '\r', '\n']) ∨
  w = '"' :: f.flatMap (fun c => if c = '"' then ['"', '"'] else [c]) ++ ['"']

/-- fields separated by commas -/
inductive RecordText : Str → List Str → Prop where
  | one {w f} : FieldText w f → RecordText w [f]
  | more {w f t fs} : FieldText w f → RecordText t fs → RecordText (w ++ ',' :: t) (f :: fs)

/-- records separated by line ends; the last may have one, too -/
inductive FileText : Str → List (List Str) → Prop where
  | none : FileText [] []
  | last {t r} : RecordText t r → FileText t [r]
  | more {t r e s rs} : RecordText t r → e = ['\r', '\n'] ∨ e = ['\n'] → FileText s rs → FileText (t ++ e ++ s) (r :: rs)

/-! What a reader that is a little more liberal takes: single carriage returns and empty lines. -/

/-- line ends made uniform: a carriage return before a line feed, or at the very end, is dropped -/
def unix : Str → Str
  | [] => []
  | c :: s => if c = '\r' ∧ (s = [] ∨ s.head? = some '\n') then unix s else c :: unix s

/-- a field: as it is, if it has no comma, quote or line feed; or in quotes, with its quotes doubled -/
def LooseField (w f : Str) : Prop :=
  (w = f ∧ ',' ∉ f ∧ '"' ∉ f ∧ '\n' ∉ f) ∨ w = '"' :: f.flatMap (fun c => if c = '"' then ['"', '"'] else [c]) ++ ['"']

/-- fields separated by commas -/
inductive LooseRecord : Str → List Str → Prop where
  | one {w f} : LooseField w f → LooseRecord w [f]
  | more {w f t fs} : LooseField w f → LooseRecord t fs → LooseRecord (w ++ ',' :: t) (f :: fs)

/-- lines that are records, or empty -/
inductive LooseFile : Str → List (List Str) → Prop where
  | none : LooseFile [] []
  | blank {s rs} : LooseFile s rs → LooseFile ('\n' :: s) rs
  | last {t r} : LooseRecord t r → t ≠ [] → LooseFile t [r]
  | more {t r s rs} : LooseRecord t r → t ≠ [] → LooseFile s rs → LooseFile (t ++ '\n' :: s) (r :: rs)

end Go.Csv.Spec
