import Verif.Pep440.Spec
/-!
The grammar of PEP 440 ("Appendix B: Parsing version strings with regular expressions", and the section
"Normalization"), written as relations between a text and what it means.  Nothing here refers to the model's regular
expression or to its parser.
-/
namespace Pep440.Spec
open Go

/-- a non-empty run of decimal digits and its value -/
def Number (w : Str) (n : Int) : Prop :=
  w ≠ [] ∧ (∀ c ∈ w, c ∈ "0123456789".toList) ∧ n = ((w.foldl (fun acc c => acc * 10 + (c.toNat - 48)) 0 : Nat) : Int)

/-- an optional separator -/
def Sep (w : Str) : Prop := w = [] ∨ w = ['-'] ∨ w = ['_'] ∨ w = ['.']

/-- a number that may be left out, meaning zero -/
def OptNumber (w : Str) (n : Int) : Prop := (w = [] ∧ n = 0) ∨ Number w n

/-- `N!`, or nothing -/
def EpochText (w : Str) (n : Int) : Prop := (w = [] ∧ n = 0) ∨ ∃ d, Number d n ∧ w = d ++ ['!']

/-- numbers separated by dots -/
inductive ReleaseText : Str → List Int → Prop where
  | one {w n} : Number w n → ReleaseText w [n]
  | more {w n t ns} : Number w n → ReleaseText t ns → ReleaseText (w ++ '.' :: t) (n :: ns)

/-- a word out of a table, between optional separators, with an optional number -/
def Worded (words : List (Str × Str)) (w : Str) (l : Str) (n : Int) : Prop :=
  ∃ s1 word s2 d, Sep s1 ∧ (word, l) ∈ words ∧ Sep s2 ∧ OptNumber d n ∧ w = s1 ++ word ++ s2 ++ d

/-- the spellings of the pre-release phases and what they mean -/
def preWords : List (Str × Str) :=
  [("a".toList, "a".toList), ("alpha".toList, "a".toList), ("b".toList, "b".toList), ("beta".toList, "b".toList),
   ("c".toList, "rc".toList), ("rc".toList, "rc".toList), ("pre".toList, "rc".toList), ("preview".toList, "rc".toList)]

/-- the spellings of a post-release -/
def postWords : List (Str × Str) :=
  [("post".toList, "post".toList), ("rev".toList, "post".toList), ("r".toList, "post".toList)]

/-- the spelling of a development release -/
def devWords : List (Str × Str) := [("dev".toList, "dev".toList)]

/-- the pre-release part, or nothing -/
def PreText (w : Str) (p : Option (Str × Int)) : Prop :=
  (w = [] ∧ p = none) ∨ ∃ l n, Worded preWords w l n ∧ p = some (l, n)

/-- a post-release may also be written `-N` -/
def PostText (w : Str) (p : Option Int) : Prop :=
  (w = [] ∧ p = none) ∨ (∃ d n, Number d n ∧ w = '-' :: d ∧ p = some n) ∨
  ∃ l n, Worded postWords w l n ∧ p = some n

/-- the development release part, or nothing -/
def DevText (w : Str) (p : Option Int) : Prop :=
  (w = [] ∧ p = none) ∨ ∃ l n, Worded devWords w l n ∧ p = some n

/-- one segment of a local label: a number if all its characters are digits, otherwise the text -/
def SegText (w : Str) (g : Seg) : Prop :=
  (∃ n, Number w n ∧ g = .int n) ∨
  ((∀ c ∈ w, c ∈ "abcdefghijklmnopqrstuvwxyz0123456789".toList) ∧ (∃ c ∈ w, c ∉ "0123456789".toList) ∧ g = .str w)

/-- segments separated by `-`, `_` or `.` -/
inductive SegsText : Str → List Seg → Prop where
  | one {w g} : SegText w g → SegsText w [g]
  | more {w g s t gs} : SegText w g → Sep s → s ≠ [] → SegsText t gs → SegsText (w ++ s ++ t) (g :: gs)

/-- the local label, or nothing -/
def LocalText (w : Str) (gs : List Seg) : Prop := (w = [] ∧ gs = []) ∨ ∃ t, w = '+' :: t ∧ SegsText t gs

/-- the lower-case text `w` says the version `v`.  The one real ambiguity is settled as in PEP 440's regular
expression: in `1a-1` the number belongs to the pre-release, so a post-release is written `-N` only where it does not
directly follow the word of a pre-release. -/
def Says (w : Str) (v : Ver) : Prop :=
  ∃ vv ep rel pre post dev loc, w = vv ++ ep ++ rel ++ pre ++ post ++ dev ++ loc ∧ (vv = [] ∨ vv = ['v']) ∧
    EpochText ep v.epoch ∧ ReleaseText rel v.release ∧ PreText pre v.pre ∧ PostText post v.post ∧
    DevText dev v.dev ∧ LocalText loc v.loc ∧
    ((∃ d n, Number d n ∧ post = '-' :: d) → ∀ a word l, pre = a ++ word → (word, l) ∉ preWords)

/-- the text `s` says the version `v`: up to case and surrounding blanks -/
def Reads (s : Str) (v : Ver) : Prop :=
  ∃ a body b w, s = a ++ body ++ b ∧ Blank a ∧ Blank b ∧ SameUpToCase body w ∧ Says w v

/-- the public numbers fit an `int` -/
def Fits (v : Ver) : Prop :=
  v.epoch < 2 ^ 63 ∧ (∀ n ∈ v.release, n < 2 ^ 63) ∧ (∀ l n, v.pre = some (l, n) → n < 2 ^ 63) ∧
  (∀ n, v.post = some n → n < 2 ^ 63) ∧ (∀ n, v.dev = some n → n < 2 ^ 63)

/-- every run of digits behind a `+` is below 2^31 -/
def SmallLocal (s : Str) : Prop := ∀ a d b n, s = a ++ d ++ b → '+' ∈ a → Number d n → n < 2 ^ 31

end Pep440.Spec
