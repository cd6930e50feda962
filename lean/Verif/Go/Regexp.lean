import Verif.Go.Basic
/-!
A model of the fragment of Go's `regexp` package the modelled code uses: character classes, sequence,
alternation, greedy `?` `*` `+`, capture groups, leftmost-first (Perl) preference, anchored at both ends.

`run r s` lists every way `r` can match a prefix of `s`, most preferred first, as (captures, remaining text).
`FindStringSubmatch` of a regexp `^r$` is the first element that leaves nothing over.
-/
namespace Go

/-- Regular expressions; `γ` names the capture groups. -/
inductive Re (γ : Type) where
  | eps
  | chr (p : Char → Bool)
  | seq (a b : Re γ)
  | alt (a b : Re γ)
  | opt (a : Re γ)
  | star (a : Re γ)
  | cap (n : γ) (a : Re γ)

/-- the texts of the groups that took part in the match -/
abbrev Caps (γ : Type) := List (γ × Str)

/-- greedy `*`: prefer one more non-empty iteration over stopping; `fuel` bounds the iterations and is always
given as the length of the text, each iteration consuming at least one character. -/
def starRun {γ : Type} (m : Str → List (Caps γ × Str)) : Nat → Str → List (Caps γ × Str)
  | 0, s => [([], s)]
  | n + 1, s =>
    ((m s).filter (fun p => p.2.length < s.length)).flatMap
      (fun p => (starRun m n p.2).map (fun q => (p.1 ++ q.1, q.2))) ++ [([], s)]

/-- all ways to match a beginning of the text, the preferred one first: the captures and what is left of the text -/
def Re.run {γ : Type} : Re γ → Str → List (Caps γ × Str)
  | .eps, s => [([], s)]
  | .chr p, s => match s with
      | [] => []
      | c :: t => if p c then [([], t)] else []
  | .seq a b, s => (a.run s).flatMap (fun p => (b.run p.2).map (fun q => (p.1 ++ q.1, q.2)))
  | .alt a b, s => a.run s ++ b.run s
  | .opt a, s => a.run s ++ [([], s)]
  | .star a, s => starRun a.run s.length s
  | .cap n a, s => (a.run s).map (fun p => ((n, s.take (s.length - p.2.length)) :: p.1, p.2))

/-- `+` -/
def Re.plus {γ : Type} (a : Re γ) : Re γ := .seq a (.star a)

/-- a literal string under a case folding `f` -/
def Re.lit {γ : Type} (f : Char → Char → Bool) : Str → Re γ
  | [] => .eps
  | [c] => .chr (f c)
  | c :: d :: cs => .seq (.chr (f c)) (Re.lit f (d :: cs))

/-- alternatives, most preferred first -/
def Re.alts {γ : Type} : List (Re γ) → Re γ
  | [] => .alt (.chr (fun _ => false)) (.chr (fun _ => false))
  | [r] => r
  | r :: q :: rs => .alt r (Re.alts (q :: rs))

/-- sequence -/
def Re.seqs {γ : Type} : List (Re γ) → Re γ
  | [] => .eps
  | [r] => r
  | r :: q :: rs => .seq r (Re.seqs (q :: rs))

/-- `regexp.MustCompile("^r$").FindStringSubmatch(s)`; `none` when there is no match -/
def Re.matchFull {γ : Type} (r : Re γ) (s : Str) : Option (Caps γ) :=
  ((r.run s).find? (fun p => p.2.isEmpty)).map (·.1)

/-- `match[re.SubexpIndex(name)]`: the empty string when the group took no part -/
def group {γ : Type} [DecidableEq γ] (caps : Caps γ) (n : γ) : Str :=
  match caps.find? (fun p => p.1 = n) with
  | some p => p.2
  | none => []

/-- exact character -/
def lit (c : Char) : Char → Bool := fun d => d = c

/-- a character matched under `(?i)`: itself, its ASCII case variant, and for `s` and `k` the extra simple case
foldings U+017F and U+212A. -/
def ci (c : Char) : Char → Bool := fun d =>
  d = c || (if 'A' ≤ d && d ≤ 'Z' then Char.ofNat (d.toNat + 32) = c else false) ||
  (c = 's' && d = '\u017f') || (c = 'k' && d = '\u212a')

/-- `[a-z0-9]` under `(?i)` -/
def ciAlnum : Char → Bool := fun d =>
  isDig d || ('a' ≤ d && d ≤ 'z') || ('A' ≤ d && d ≤ 'Z') || d = '\u017f' || d = '\u212a'

/-- `\s` -/
def reSpace : Char → Bool := fun d => d = '\t' || d = '\n' || d = '\x0c' || d = '\r' || d = ' '

end Go
