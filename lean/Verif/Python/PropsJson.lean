import Verif.Python.Json

/-!
C76: the text `jsonDumps` writes is the JSON text of the document with `", "` and `": "`.

`C76_violated`: not when an array has an array or object anywhere but at its front.
`C76_exact_partial`: these are the only exceptions.
`C76_direct_url_partial`: for every `DirectURL`, the only type `jsonDumps` is called with, the
output is right, and it only differs from the compact text in white space between tokens.
-/

namespace Python.Json
open Go

namespace Spec

mutual
/-- The JSON text of a document, with the given item separator and key separator:
`json.dumps(v, separators=(comma, colon))` in Python. -/
def text (comma colon : Str) : Value → Str
  | .scalar t => t
  | .arr vs => ['['] ++ join comma (texts comma colon vs) ++ [']']
  | .obj ms => ['{'] ++ join comma (members comma colon ms) ++ ['}']
def texts (comma colon : Str) : List Value → List Str
  | [] => []
  | v :: vs => text comma colon v :: texts comma colon vs
def members (comma colon : Str) : List (Str × Value) → List Str
  | [] => []
  | (k, v) :: ms => (k ++ colon ++ text comma colon v) :: members comma colon ms
end

/-- Python's `json.dumps(v)`. -/
def pretty : Value → Str := text ", ".toList ": ".toList

/-- The text without white space between tokens, as Go's `json.Marshal` writes it. -/
def compact : Value → Str := text ",".toList ":".toList

/-- An array or an object. -/
def container : Value → Bool
  | .scalar _ => false
  | _ => true

mutual
/-- No array, at any depth, has an array or object behind its first element. -/
def ContainersFirst : Value → Prop
  | .scalar _ => True
  | .arr vs => (∀ v ∈ vs.drop 1, container v = false) ∧ AllFirst vs
  | .obj ms => AllFirstM ms
def AllFirst : List Value → Prop
  | [] => True
  | v :: vs => ContainersFirst v ∧ AllFirst vs
def AllFirstM : List (Str × Value) → Prop
  | [] => True
  | (_, v) :: ms => ContainersFirst v ∧ AllFirstM ms
end

/-- The inside of a JSON string literal: no quote, and a backslash escapes what follows. -/
inductive Body : Str → Prop
  | nil : Body []
  | char {c : Char} {s : Str} : c ≠ '"' → c ≠ '\\' → Body s → Body (c :: s)
  | esc {c : Char} {s : Str} : Body s → Body ('\\' :: c :: s)

/-- The text of a scalar: a string literal, or something without quotes and spaces. -/
def Literal (t : Str) : Prop :=
  (∀ c ∈ t, c ≠ '"' ∧ c ≠ ' ') ∨ ∃ b, Body b ∧ t = '"' :: (b ++ ['"'])

mutual
/-- All scalars and member names are literals. -/
def Lexical : Value → Prop
  | .scalar t => Literal t
  | .arr vs => LexicalA vs
  | .obj ms => LexicalM ms
def LexicalA : List Value → Prop
  | [] => True
  | v :: vs => Lexical v ∧ LexicalA vs
def LexicalM : List (Str × Value) → Prop
  | [] => True
  | (k, v) :: ms => Literal k ∧ Lexical v ∧ LexicalM ms
end

mutual
/-- Drop the spaces outside string literals. -/
def dropSpaces : Str → Str
  | [] => []
  | c :: s => if c = ' ' then dropSpaces s else if c = '"' then c :: inString s else c :: dropSpaces s
/-- `dropSpaces` inside a string literal. -/
def inString : Str → Str
  | [] => []
  | ['\\'] => ['\\']
  | '\\' :: c :: s => '\\' :: c :: inString s
  | c :: s => if c = '"' then c :: dropSpaces s else c :: inString s
end

end Spec

open Spec

/-! ### What the loop writes -/

mutual
/-- What the loop writes for a value: no separator before an inner container of an array. -/
def actual : Value → Str
  | .scalar t => t
  | .arr vs => ['['] ++ actualA true vs ++ [']']
  | .obj ms => ['{'] ++ actualM true ms ++ ['}']
def actualA (first : Bool) : List Value → Str
  | [] => []
  | v :: vs => (if first || container v then [] else [',', ' ']) ++ actual v ++ actualA false vs
def actualM (first : Bool) : List (Str × Value) → Str
  | [] => []
  | (k, v) :: ms => (if first then [] else [',', ' ']) ++ k ++ [':', ' '] ++ actual v ++ actualM false ms
end

theorem run_append (a b : List Token) : ∀ s, run s (a ++ b) = (run s a).bind fun s' => run s' b := by
  induction a with
  | nil => intro s; rfl
  | cons t ts ih =>
    intro s
    simp only [List.cons_append, run]
    cases step s t with
    | none => rfl
    | some s' => simp only [Option.bind_some, ih]

/-- A value in an array context (`top < 0`) or in a value position of an object (`top` even). -/
def ValuePos (top : Int) : Prop := top < 0 ∨ (0 < top ∧ top.tmod 2 = 0)

def next (top : Int) : Int := if top < 0 then top - 1 else top + 1

mutual
theorem run_value : ∀ (v : Value) (top : Int) (rest : List Int) (dst : Str), ValuePos top →
    run ⟨top :: rest, dst⟩ (tokens v) =
      some ⟨next top :: rest,
        dst ++ (if top < -1 ∧ container v = false then [',', ' '] else []) ++ actual v⟩
  | .scalar t, top, rest, dst, h => by
    rcases h with h | ⟨h, h2⟩
    · simp only [tokens, run, step, completeObj, h, if_true, container, and_true, actual, next]
      by_cases h1 : top < -1
      · simp [h1]
      · have : ¬ top > 1 := by omega
        simp [h1, this]
    · have h0 : ¬ top < 0 := by omega
      have h1 : ¬ top < -1 := by omega
      simp [tokens, run, step, completeObj, h0, h1, h2, actual, next, container]
  | .arr vs, top, rest, dst, h => by
    have ha := run_arr vs (-1) (top :: rest) (dst ++ ['[']) (by omega)
    simp only [tokens, run, step, Option.bind_some]
    rw [run_append, ha]
    simp only [Option.bind_some, run, step]
    rcases h with h | ⟨h, h2⟩
    · simp [completeObj, h, next, actual, container]
    · have h0 : ¬ top < 0 := by omega
      simp [completeObj, h0, h2, next, actual, container]
  | .obj ms, top, rest, dst, h => by
    have ha := run_obj ms 1 (top :: rest) (dst ++ ['{']) (by omega) (by decide)
    simp only [tokens, run]
    rw [show step ⟨top :: rest, dst⟩ (.open_ '{') = some ⟨1 :: top :: rest, dst ++ ['{']⟩ from rfl]
    simp only [Option.bind_some]
    rw [run_append, ha]
    simp only [Option.bind_some, run, step]
    rcases h with h | ⟨h, h2⟩
    · simp [completeObj, h, next, actual, container]
    · have h0 : ¬ top < 0 := by omega
      simp [completeObj, h0, h2, next, actual, container]
theorem run_arr : ∀ (vs : List Value) (top : Int) (rest : List Int) (dst : Str), top < 0 →
    run ⟨top :: rest, dst⟩ (tokensArr vs) =
      some ⟨(top - (vs.length : Int)) :: rest, dst ++ actualA (decide (top = -1)) vs⟩
  | [], top, rest, dst, h => by simp [tokensArr, run, actualA]
  | v :: vs, top, rest, dst, h => by
    have h1 := run_value v top rest dst (Or.inl h)
    simp only [tokensArr]
    rw [run_append, h1]
    simp only [Option.bind_some, next, h, if_true]
    rw [run_arr vs (top - 1) rest _ (by omega)]
    have e : decide (top - 1 = -1) = false := by simp; omega
    rw [e]
    have e2 : (if top < -1 ∧ container v = false then [',', ' '] else ([] : Str)) =
        (if (decide (top = -1) || container v) = true then [] else [',', ' ']) := by
      by_cases h3 : top = -1
      · simp [h3]
      · have : top < -1 := by omega
        cases hc : container v <;> simp [h3, this]
    simp only [actualA, e2, List.append_assoc, List.length_cons]
    congr 2
    simp; omega
theorem run_obj : ∀ (ms : List (Str × Value)) (top : Int) (rest : List Int) (dst : Str), 0 < top →
    top.tmod 2 = 1 → run ⟨top :: rest, dst⟩ (tokensObj ms) =
      some ⟨(top + 2 * (ms.length : Int)) :: rest, dst ++ actualM (decide (top = 1)) ms⟩
  | [], top, rest, dst, h, _ => by simp [tokensObj, run, actualM]
  | (k, v) :: ms, top, rest, dst, h, hodd => by
    have hk : step ⟨top :: rest, dst⟩ (.scalar k) =
        some ⟨(top + 1) :: rest, dst ++ (if decide (top = 1) then [] else [',', ' ']) ++ k ++ [':', ' ']⟩ := by
      have h0 : ¬ top < 0 := by omega
      have h1 : ¬ top < -1 := by omega
      by_cases h3 : top = 1
      · subst h3; simp [step, completeObj]
      · have h4 : top > 1 := by omega
        simp [step, completeObj, h0, h1, h3, h4, hodd]
    rw [Int.tmod_eq_emod_of_nonneg (by omega)] at hodd
    have hev : (top + 1).tmod 2 = 0 := by rw [Int.tmod_eq_emod_of_nonneg (by omega)]; omega
    have h1 := run_value v (top + 1) rest (dst ++ (if decide (top = 1) then [] else [',', ' ']) ++ k ++ [':', ' '])
      (Or.inr ⟨by omega, hev⟩)
    have hn : ¬ (top + 1 < -1 ∧ container v = false) := by omega
    rw [if_neg hn] at h1
    have hnx : next (top + 1) = top + 2 := by unfold next; rw [if_neg (by omega)]; omega
    simp only [tokensObj, run, hk, Option.bind_some]
    rw [run_append, h1]
    simp only [Option.bind_some, hnx]
    rw [run_obj ms (top + 2) rest _ (by omega) (by rw [Int.tmod_eq_emod_of_nonneg (by omega)]; omega)]
    have e : decide (top + 2 = 1) = false := by simp; omega
    rw [e]
    simp only [actualM, List.append_assoc, List.append_nil, List.length_cons]
    congr 2
    simp; omega
end

theorem jsonDumps_actual (v : Value) : jsonDumps v = some (actual v) := by
  unfold jsonDumps
  rw [run_value v (-1) [] [] (Or.inl (by omega))]
  simp

/-! ### Comparison with the specification -/

def tailed (comma : Str) : List Str → Str
  | [] => []
  | t :: ts => comma ++ t ++ tailed comma ts

theorem join_tailed (c t : Str) (ts : List Str) : join c (t :: ts) = t ++ tailed c ts := by
  induction ts generalizing t with
  | nil => simp [join, tailed]
  | cons a as ih => simp [join, tailed, ih]

def prettyA (first : Bool) (vs : List Value) : Str :=
  if first then join ", ".toList (texts ", ".toList ": ".toList vs)
  else tailed ", ".toList (texts ", ".toList ": ".toList vs)

def prettyM (first : Bool) (ms : List (Str × Value)) : Str :=
  if first then join ", ".toList (members ", ".toList ": ".toList ms)
  else tailed ", ".toList (members ", ".toList ": ".toList ms)

theorem prettyA_cons (first : Bool) (v : Value) (vs : List Value) :
    prettyA first (v :: vs) = (if first then [] else [',', ' ']) ++ pretty v ++ prettyA false vs := by
  cases first <;> simp [prettyA, texts, join_tailed, tailed, pretty]

theorem prettyM_cons (first : Bool) (k : Str) (v : Value) (ms : List (Str × Value)) :
    prettyM first ((k, v) :: ms) =
      (if first then [] else [',', ' ']) ++ k ++ [':', ' '] ++ pretty v ++ prettyM false ms := by
  cases first <;> simp [prettyM, members, join_tailed, tailed, pretty]

theorem pretty_arr (vs : List Value) : pretty (.arr vs) = ['['] ++ prettyA true vs ++ [']'] := by
  simp [pretty, text, prettyA]

theorem pretty_obj (ms : List (Str × Value)) : pretty (.obj ms) = ['{'] ++ prettyM true ms ++ ['}'] := by
  simp [pretty, text, prettyM]

/-- elements that come without separator -/
def Good (first : Bool) (vs : List Value) : Prop :=
  (∀ v ∈ (if first then vs.drop 1 else vs), container v = false) ∧ AllFirst vs

mutual
theorem len_value : ∀ v, (actual v).length ≤ (pretty v).length ∧
    ((actual v).length = (pretty v).length → ContainersFirst v) ∧ (ContainersFirst v → actual v = pretty v)
  | .scalar t => by simp [actual, pretty, text, ContainersFirst]
  | .arr vs => by
    obtain ⟨h1, h2, h3⟩ := len_arr vs true
    rw [pretty_arr]
    refine ⟨by simp [actual]; exact h1, fun h => ?_, fun h => ?_⟩
    · have := h2 (by simp [actual] at h; exact h)
      simpa [ContainersFirst, Good] using this
    · have := h3 (by simpa [ContainersFirst, Good] using h)
      simp [actual, this]
  | .obj ms => by
    obtain ⟨h1, h2, h3⟩ := len_obj ms true
    rw [pretty_obj]
    refine ⟨by simp [actual]; exact h1, fun h => ?_, fun h => ?_⟩
    · have := h2 (by simp [actual] at h; exact h)
      simpa [ContainersFirst] using this
    · have := h3 (by simpa [ContainersFirst] using h)
      simp [actual, this]
theorem len_arr : ∀ vs first, (actualA first vs).length ≤ (prettyA first vs).length ∧
    ((actualA first vs).length = (prettyA first vs).length → Good first vs) ∧
    (Good first vs → actualA first vs = prettyA first vs)
  | [], first => by cases first <;> simp [actualA, prettyA, texts, join, tailed, Good, AllFirst]
  | v :: vs, first => by
    obtain ⟨a1, a2, a3⟩ := len_value v
    obtain ⟨b1, b2, b3⟩ := len_arr vs false
    rw [prettyA_cons]
    cases first <;> cases hc : container v <;>
      simp only [actualA, hc, Bool.or_true, Bool.or_false, Bool.false_eq_true, if_false, if_true,
        List.length_append, List.length_cons, List.length_nil, List.nil_append]
    · refine ⟨by omega, fun h => ?_, fun h => ?_⟩
      · have g1 := a2 (by omega)
        have g2 := b2 (by omega)
        simp only [Good, Bool.false_eq_true, if_false, List.mem_cons, AllFirst] at g2 ⊢
        refine ⟨?_, g1, g2.2⟩
        rintro x (rfl | hx)
        · exact hc
        · exact g2.1 x hx
      · simp only [Good, Bool.false_eq_true, if_false, List.mem_cons, AllFirst] at h b3
        rw [a3 h.2.1, b3 ⟨fun x hx => h.1 x (Or.inr hx), h.2.2⟩]
    · refine ⟨by omega, fun h => by omega, fun h => ?_⟩
      simp only [Good, Bool.false_eq_true, if_false, List.mem_cons, AllFirst] at h
      have := h.1 v (Or.inl rfl)
      rw [hc] at this; cases this
    all_goals
      refine ⟨by omega, fun h => ?_, fun h => ?_⟩
      · have g1 := a2 (by omega)
        have g2 := b2 (by omega)
        simp only [Good, Bool.false_eq_true, if_false, if_true, List.drop_succ_cons, List.drop_zero, AllFirst] at g2 ⊢
        exact ⟨g2.1, g1, g2.2⟩
      · simp only [Good, Bool.false_eq_true, if_false, if_true, List.drop_succ_cons, List.drop_zero, AllFirst] at h b3
        rw [a3 h.2.1, b3 ⟨h.1, h.2.2⟩]
theorem len_obj : ∀ ms first, (actualM first ms).length ≤ (prettyM first ms).length ∧
    ((actualM first ms).length = (prettyM first ms).length → AllFirstM ms) ∧
    (AllFirstM ms → actualM first ms = prettyM first ms)
  | [], first => by cases first <;> simp [actualM, prettyM, members, join, tailed, AllFirstM]
  | (k, v) :: ms, first => by
    obtain ⟨a1, a2, a3⟩ := len_value v
    obtain ⟨b1, b2, b3⟩ := len_obj ms false
    rw [prettyM_cons]
    refine ⟨?_, fun h => ?_, fun h => ?_⟩
    · simp only [actualM, List.length_append]; omega
    · simp only [actualM, List.length_append] at h
      exact ⟨a2 (by omega), b2 (by omega)⟩
    · simp only [AllFirstM] at h
      simp only [actualM, a3 h.1, b3 h.2]
end

/-- C76, as far as it holds: the loop always ends well, and its output is what Python's
`json.dumps` writes for exactly the documents in which no array has an array or object behind its
first element.  (Missing from the full property: all other documents, see `C76_violated`.) -/
theorem C76_exact_partial (v : Value) :
    ∃ out, jsonDumps v = some out ∧ (out = Spec.pretty v ↔ Spec.ContainersFirst v) := by
  refine ⟨actual v, jsonDumps_actual v, fun h => ?_, (len_value v).2.2⟩
  exact (len_value v).2.1 (by rw [h])

/-- `{"a": [[1], 2, "x y"], "b": {"c": {}, "d": []}}` meets the condition. -/
def sample : Value :=
  .obj [("\"a\"".toList, .arr [.arr [.scalar "1".toList], .scalar "2".toList, .scalar "\"x y\"".toList]),
    ("\"b\"".toList, .obj [("\"c\"".toList, .obj []), ("\"d\"".toList, .arr [])])]

example : Spec.ContainersFirst sample ∧
    jsonDumps sample = some "{\"a\": [[1], 2, \"x y\"], \"b\": {\"c\": {}, \"d\": []}}".toList := by
  constructor
  · simp [sample, ContainersFirst, AllFirst, AllFirstM, container]
  · decide +kernel

/-- The document `[[1],[2]]` comes out as `[[1][2]]`, which is not its JSON text in any spacing:
not even the compact text with the spaces dropped. -/
theorem C76_violated :
    ∃ v out, jsonDumps v = some out ∧ out = "[[1][2]]".toList ∧ out ≠ Spec.pretty v ∧
      Spec.dropSpaces out ≠ Spec.compact v :=
  ⟨.arr [.arr [.scalar "1".toList], .arr [.scalar "2".toList]], "[[1][2]]".toList,
    by decide +kernel, rfl, by decide +kernel, by decide +kernel⟩

/-! ### Dropping the spaces -/

theorem inString_body {b : Str} (h : Body b) (r : Str) : inString (b ++ ['"'] ++ r) = b ++ ['"'] ++ dropSpaces r := by
  induction h with
  | nil => simp [inString]
  | @char c s h1 h2 _ ih =>
    cases hs : s ++ ['"'] ++ r with
    | nil => simp at hs
    | cons d ds =>
      rw [hs] at ih
      simp only [List.cons_append, List.append_assoc] at hs ih ⊢
      rw [hs]
      rw [inString.eq_4 _ _ (by rintro rfl; exact absurd rfl h2) (by rintro e _ rfl; exact absurd rfl h2), if_neg h1, ih]
  | @esc c s _ ih => simp only [List.cons_append, inString, ih]

theorem dropSpaces_literal {t : Str} (h : Literal t) (r : Str) : dropSpaces (t ++ r) = t ++ dropSpaces r := by
  rcases h with h | ⟨b, hb, rfl⟩
  · induction t with
    | nil => rfl
    | cons c t ih =>
      have hc := h c (by simp)
      simp only [List.cons_append, dropSpaces, if_neg hc.1, if_neg hc.2]
      rw [ih fun x hx => h x (by simp [hx])]
  · have := inString_body hb r
    simp only [List.cons_append, List.append_assoc, List.nil_append] at this ⊢
    simp [dropSpaces, this]

def compactA (first : Bool) (vs : List Value) : Str :=
  if first then join ",".toList (texts ",".toList ":".toList vs)
  else tailed ",".toList (texts ",".toList ":".toList vs)

def compactM (first : Bool) (ms : List (Str × Value)) : Str :=
  if first then join ",".toList (members ",".toList ":".toList ms)
  else tailed ",".toList (members ",".toList ":".toList ms)

theorem compactA_cons (first : Bool) (v : Value) (vs : List Value) :
    compactA first (v :: vs) = (if first then [] else [',']) ++ compact v ++ compactA false vs := by
  cases first <;> simp [compactA, texts, join_tailed, tailed, compact]

theorem compactM_cons (first : Bool) (k : Str) (v : Value) (ms : List (Str × Value)) :
    compactM first ((k, v) :: ms) =
      (if first then [] else [',']) ++ k ++ [':'] ++ compact v ++ compactM false ms := by
  cases first <;> simp [compactM, members, join_tailed, tailed, compact]

theorem drop_comma (first : Bool) (r : Str) :
    dropSpaces ((if first then [] else [',', ' ']) ++ r) = (if first then [] else [',']) ++ dropSpaces r := by
  cases first <;> simp [dropSpaces]

mutual
theorem drop_value : ∀ v, Lexical v → ∀ r, dropSpaces (pretty v ++ r) = compact v ++ dropSpaces r
  | .scalar t, h, r => by
    simpa [pretty, compact, text] using dropSpaces_literal h r
  | .arr vs, h, r => by
    have := drop_arr vs h true ([']'] ++ r)
    rw [pretty_arr]
    have e : compact (.arr vs) = ['['] ++ compactA true vs ++ [']'] := by simp [compact, text, compactA]
    rw [e]
    simp only [List.append_assoc, List.cons_append, List.nil_append] at this ⊢
    rw [dropSpaces, if_neg (by decide), if_neg (by decide), this, dropSpaces, if_neg (by decide), if_neg (by decide)]
  | .obj ms, h, r => by
    have := drop_obj ms h true (['}'] ++ r)
    rw [pretty_obj]
    have e : compact (.obj ms) = ['{'] ++ compactM true ms ++ ['}'] := by simp [compact, text, compactM]
    rw [e]
    simp only [List.append_assoc, List.cons_append, List.nil_append] at this ⊢
    rw [dropSpaces, if_neg (by decide), if_neg (by decide), this, dropSpaces, if_neg (by decide), if_neg (by decide)]
theorem drop_arr : ∀ vs, LexicalA vs → ∀ first r, dropSpaces (prettyA first vs ++ r) = compactA first vs ++ dropSpaces r
  | [], _, first, r => by cases first <;> simp [prettyA, compactA, texts, join, tailed]
  | v :: vs, h, first, r => by
    rw [prettyA_cons, compactA_cons]
    simp only [List.append_assoc]
    rw [drop_comma, drop_value v h.1, drop_arr vs h.2]
theorem drop_obj : ∀ ms, LexicalM ms → ∀ first r, dropSpaces (prettyM first ms ++ r) = compactM first ms ++ dropSpaces r
  | [], _, first, r => by cases first <;> simp [prettyM, compactM, members, join, tailed]
  | (k, v) :: ms, h, first, r => by
    rw [prettyM_cons, compactM_cons]
    simp only [List.append_assoc]
    rw [drop_comma, dropSpaces_literal h.1]
    simp only [List.cons_append, List.nil_append]
    rw [show ∀ x : Str, dropSpaces (':' :: ' ' :: x) = ':' :: dropSpaces x from fun x => by simp [dropSpaces],
      drop_value v h.2.1, drop_obj ms h.2.2]
end

/-- C76 on all values whose arrays have containers only in front: dropping the spaces outside the
string literals of the output gives the compact JSON text of the value. -/
theorem C76_white_space_partial (v : Value) (hv : Spec.ContainersFirst v) (hl : Spec.Lexical v) :
    ∃ out, jsonDumps v = some out ∧ Spec.dropSpaces out = Spec.compact v := by
  refine ⟨actual v, jsonDumps_actual v, ?_⟩
  rw [(len_value v).2.2 hv]
  have := drop_value v hl []
  simpa [dropSpaces] using this

theorem literal_quote {s : Str} (h : ∀ c ∈ s, c ≠ '"' ∧ c ≠ '\\') : Literal (quote s) := by
  refine Or.inr ⟨s, ?_, rfl⟩
  induction s with
  | nil => exact .nil
  | cons c s ih => exact .char (h c (by simp)).1 (h c (by simp)).2 (ih fun x hx => h x (by simp [hx]))

example : Spec.ContainersFirst sample ∧ Spec.Lexical sample := by
  have l1 : ∀ t ∈ ["1".toList, "2".toList], Literal t := fun t ht => Or.inl (by revert t ht; decide +kernel)
  have l2 : ∀ t ∈ ["a".toList, "b".toList, "c".toList, "d".toList, "x y".toList], Literal (quote t) :=
    fun t ht => literal_quote (by revert t ht; decide +kernel)
  refine ⟨by simp [sample, ContainersFirst, AllFirst, AllFirstM, container], ?_⟩
  simp only [List.mem_cons, List.not_mem_nil, or_false, forall_eq_or_imp, forall_eq] at l1 l2
  exact ⟨l2.1, ⟨⟨l1.1, trivial⟩, l1.2, l2.2.2.2.2, trivial⟩,
    l2.2.1, ⟨l2.2.2.1, trivial, l2.2.2.2.1, trivial, trivial⟩, trivial⟩

/-- The strings in a `DirectURL` are given by string literals. -/
def Spec.UrlStrings (d : DirectURL) : Prop :=
  Spec.Literal d.url ∧ (∀ h, d.archiveInfo = some (some h) → Spec.Literal h) ∧
  ∀ i, d.vcsInfo = some i → Spec.Literal i.vcs ∧ Spec.Literal i.commitID ∧
    ∀ r, i.requestedRevision = some r → Spec.Literal r

/-- C76 for everything `jsonDumps` is called with: for every `DirectURL` the output is Python's
`json.dumps` text of its document, and dropping the spaces between the tokens gives the compact
text. -/
theorem C76_direct_url_partial (d : DirectURL) (hd : Spec.UrlStrings d) :
    ∃ out, jsonDumps d.doc = some out ∧ out = Spec.pretty d.doc ∧ Spec.dropSpaces out = Spec.compact d.doc := by
  have hc : Spec.ContainersFirst d.doc := by
    obtain ⟨url, vcs, ar, di⟩ := d
    rcases vcs with _ | ⟨v, r | r, c⟩ <;> rcases ar with _ | _ | h <;> rcases di with _ | _ | _ <;>
      simp [DirectURL.doc, ContainersFirst, AllFirstM]
  have hl : Spec.Lexical d.doc := by
    have l2 : ∀ t ∈ ["archive_info".toList, "hash".toList, "dir_info".toList, "editable".toList, "url".toList,
        "vcs_info".toList, "commit_id".toList, "requested_revision".toList, "vcs".toList], Literal (quote t) :=
      fun t ht => literal_quote (by revert t ht; decide +kernel)
    simp only [List.mem_cons, List.not_mem_nil, or_false, forall_eq_or_imp, forall_eq] at l2
    have l3 : Literal "true".toList := Or.inl (by decide +kernel)
    obtain ⟨url, vcs, ar, di⟩ := d
    obtain ⟨h1, h2, h3⟩ := hd
    rcases vcs with _ | ⟨v, r | r, c⟩ <;> rcases ar with _ | _ | h <;> rcases di with _ | _ | _ <;>
      simp_all [DirectURL.doc, Lexical, LexicalM]
  obtain ⟨out, h1, h2⟩ := C76_exact_partial d.doc
  obtain ⟨out', h3, h4⟩ := C76_white_space_partial d.doc hc hl
  rw [h1] at h3
  cases h3
  exact ⟨out, h1, h2.mpr hc, h4⟩

def sampleUrl : DirectURL :=
  ⟨"\"https://example.com/a b\"".toList, some ⟨"\"git\"".toList, some "\"v1\"".toList, "\"0a\"".toList⟩, some none, none⟩

example : Spec.UrlStrings sampleUrl ∧ jsonDumps sampleUrl.doc =
    some ("{\"archive_info\": {}, \"url\": \"https://example.com/a b\", \"vcs_info\": " ++
      "{\"commit_id\": \"0a\", \"requested_revision\": \"v1\", \"vcs\": \"git\"}}").toList := by
  have l2 : ∀ t ∈ ["https://example.com/a b".toList, "git".toList, "v1".toList, "0a".toList], Literal (quote t) :=
    fun t ht => literal_quote (by revert t ht; decide +kernel)
  simp only [List.mem_cons, List.not_mem_nil, or_false, forall_eq_or_imp, forall_eq] at l2
  refine ⟨⟨l2.1, ?_, ?_⟩, by decide +kernel⟩
  · intro h hh; cases hh
  · intro i hi
    cases hi
    exact ⟨l2.2.1, l2.2.2.2, fun r hr => by cases hr; exact l2.2.2.1⟩

end Python.Json
