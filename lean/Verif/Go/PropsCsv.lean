import Verif.Go.Csv
import Verif.Go.CsvSpec
/-! Property C118: reading and writing CSV. -/
namespace Go.Csv
open Spec

namespace Spec
/-- line breaks CR LF become LF -/
def norm : Str → Str
  | [] => []
  | '\r' :: '\n' :: s => '\n' :: norm s
  | c :: s => c :: norm s

/-- carriage returns are lost -/
def noCR (s : Str) : Str := s.filter (fun c => c != '\r')

/-- what the writer makes of line breaks -/
def crlf (s : Str) : Str := s.flatMap (fun c => if c = '\r' then [] else if c = '\n' then ['\r', '\n'] else [c])
end Spec

/-! ### lines -/

theorem cutLine_append {x t : Str} (hx : '\n' ∉ x) :
    cutLine (x ++ t) = (x ++ (cutLine t).1, (cutLine t).2.1, (cutLine t).2.2) := by
  induction x with
  | nil => rfl
  | cons c x ih =>
    have hc : c ≠ '\n' := by rintro rfl; simp at hx
    have hx' : '\n' ∉ x := fun h => hx (List.mem_cons_of_mem _ h)
    rw [List.cons_append, cutLine, if_neg hc, ih hx']
    rfl

theorem dropCR_append {x l : Str} (hl : x.getLast? ≠ some '\r') : dropCR (x ++ l) = x ++ dropCR l := by
  unfold dropCR
  cases l with
  | nil => simp [hl]
  | cons c l =>
    rw [List.getLast?_append, List.getLast?_cons, Option.some_or]
    split
    · rw [List.dropLast_append_of_ne_nil (by simp)]
    · rfl

theorem readLine_append {x t : Str} (hx : '\n' ∉ x) (hl : x.getLast? ≠ some '\r') :
    readLine (x ++ t) = (x ++ (readLine t).1, (readLine t).2) := by
  by_cases hne : x = []
  · subst hne; simp
  unfold readLine
  rw [cutLine_append hx]
  simp only
  rw [dropCR_append hl]
  split <;> simp

theorem readLine_nl {x t : Str} (hx : '\n' ∉ x) : readLine (x ++ '\n' :: t) = (dropCR x ++ ['\n'], t) := by
  unfold readLine
  rw [cutLine_append hx]
  simp [cutLine]

theorem norm_append {x t : Str} (hx : '\n' ∉ x) : norm (x ++ '\n' :: t) = dropCR x ++ '\n' :: norm t := by
  induction x with
  | nil => rw [List.nil_append, norm]; rfl; simp
  | cons c x ih =>
    have hc : c ≠ '\n' := by rintro rfl; simp at hx
    have ih := ih (fun h => hx (List.mem_cons_of_mem _ h))
    cases x with
    | nil =>
      by_cases hr : c = '\r'
      · subst hr; rfl
      · rw [List.cons_append, norm, ih]
        · have : dropCR [c] = [c] := by simp [dropCR, hr]
          rw [this]; rfl
        · intro s h; simp [hr] at h
    | cons d x =>
      rw [List.cons_append, norm, ih]
      · unfold dropCR
        simp only [List.getLast?_cons_cons, List.dropLast_cons_cons]
        split <;> simp
      · intro s _ h
        injection h with h2 h3
        subst h2
        simp at hx

theorem norm_quote {x t : Str} (hx : '\n' ∉ x) : norm (x ++ '"' :: t) = x ++ '"' :: norm t := by
  induction x with
  | nil => rw [List.nil_append, norm]; rfl; simp
  | cons c x ih =>
    have ih := ih (fun h => hx (List.mem_cons_of_mem _ h))
    rw [List.cons_append, norm, ih]
    · rfl
    · intro s _ h2
      cases x with
      | nil => simp at h2
      | cons d x => injection h2 with h2 h3; subst h2; simp at hx

theorem norm_plain {x : Str} (hx : '\n' ∉ x) : norm x = x := by
  induction x with
  | nil => rfl
  | cons c x ih =>
    rw [norm, ih (fun h => hx (List.mem_cons_of_mem _ h))]
    intro s _ h2
    subst h2
    simp at hx

/-! ### a field in quotes -/

def esc (f : Str) : Str := f.flatMap (fun c => if c = '"' then ['"', '"'] else [c])

theorem esc_plain {p : Str} (h : '"' ∉ p) : esc p = p := by
  induction p with
  | nil => rfl
  | cons c p ih =>
    have hc : c ≠ '"' := by rintro rfl; simp at h
    unfold esc at ih ⊢
    rw [List.flatMap_cons, if_neg hc, ih (fun hm => h (List.mem_cons_of_mem _ hm))]
    rfl

theorem esc_append (p q : Str) : esc (p ++ q) = esc p ++ esc q := by
  unfold esc; rw [List.flatMap_append]

/-- up to the first quote or line feed -/
theorem cut_field (f : Str) : ∃ p q, f = p ++ q ∧ '"' ∉ p ∧ '\n' ∉ p ∧
    (q = [] ∨ (∃ q', q = '"' :: q') ∨ ∃ q', q = '\n' :: q') := by
  induction f with
  | nil => exact ⟨[], [], rfl, by simp, by simp, Or.inl rfl⟩
  | cons c f ih =>
    by_cases h1 : c = '"'
    · subst h1; exact ⟨[], _, rfl, by simp, by simp, Or.inr (Or.inl ⟨f, rfl⟩)⟩
    by_cases h2 : c = '\n'
    · subst h2; exact ⟨[], _, rfl, by simp, by simp, Or.inr (Or.inr ⟨f, rfl⟩)⟩
    obtain ⟨p, q, rfl, hp, hn, hq⟩ := ih
    exact ⟨c :: p, q, rfl, by simp [hp, Ne.symm h1], by simp [hn, Ne.symm h2], hq⟩

theorem span_at {p t : Str} {d : Char} (h : d ∉ p) :
    (p ++ d :: t).takeWhile (fun c => c != d) = p ∧ (p ++ d :: t).dropWhile (fun c => c != d) = d :: t := by
  induction p with
  | nil => simp
  | cons c p ih =>
    have hc : c ≠ d := by rintro rfl; simp at h
    have ih := ih (fun hm => h (List.mem_cons_of_mem _ hm))
    simp [hc, ih]

theorem span_none {p : Str} {d : Char} (h : d ∉ p) :
    p.takeWhile (fun c => c != d) = p ∧ p.dropWhile (fun c => c != d) = [] := by
  induction p with
  | nil => simp
  | cons c p ih =>
    have hc : c ≠ d := by rintro rfl; simp at h
    have ih := ih (fun hm => h (List.mem_cons_of_mem _ hm))
    simp [hc, ih]

/-- how a record goes on behind a field -/
inductive Next : Str → Option Str → Str → Prop where
  | comma {t} : Next (',' :: t) (some (readLine t).1) (readLine t).2
  | eof : Next [] none []
  | lf {s} : Next ('\n' :: s) none s
  | crlf {s} : Next ('\r' :: '\n' :: s) none s

theorem readLine_nil : readLine [] = ([], []) := rfl
theorem readLine_lf (s : Str) : readLine ('\n' :: s) = (['\n'], s) := rfl
theorem readLine_crlf (s : Str) : readLine ('\r' :: '\n' :: s) = (['\n'], s) := rfl
theorem readLine_comma (t : Str) : readLine (',' :: t) = (',' :: (readLine t).1, (readLine t).2) :=
  readLine_append (x := [',']) (by decide) (by decide)
theorem readLine_quote (t : Str) : readLine ('"' :: t) = ('"' :: (readLine t).1, (readLine t).2) :=
  readLine_append (x := ['"']) (by decide) (by decide)

theorem quoted_field {f tail : Str} {o : Option Str} {r : Str} (hn : Next tail o r) (acc : Str) {n : Nat}
    (h : f.length + 1 ≤ n) :
    quotedLoop n (readLine (esc f ++ '"' :: tail)).1 (readLine (esc f ++ '"' :: tail)).2 acc = .ok (acc ++ norm f, o, r) := by
  induction hf : f.length using Nat.strongRecOn generalizing f acc n with
  | ind k ih =>
    obtain ⟨n, rfl⟩ : ∃ m, n = m + 1 := ⟨n - 1, by omega⟩
    obtain ⟨p, q, rfl, hp, hnl, hq⟩ := cut_field f
    rw [esc_append, esc_plain hp]
    rcases hq with rfl | ⟨q, rfl⟩ | ⟨q, rfl⟩
    · -- the closing quote
      have e : readLine (p ++ esc [] ++ '"' :: tail) = (p ++ '"' :: (readLine tail).1, (readLine tail).2) := by
        have : p ++ esc [] ++ '"' :: tail = (p ++ ['"']) ++ tail := by simp [esc]
        rw [this, readLine_append (by simp [hnl]) (by simp)]
        simp
      rw [e, quotedLoop, (span_at hp).1, (span_at hp).2]
      simp only [List.append_nil]
      rw [norm_plain hnl]
      cases hn with
      | comma => simp [readLine_comma]
      | eof => simp [readLine_nil]
      | lf => simp [readLine_lf]
      | crlf => simp [readLine_crlf]
    · -- a doubled quote
      have e : readLine (p ++ esc ('"' :: q) ++ '"' :: tail) =
          (p ++ '"' :: '"' :: (readLine (esc q ++ '"' :: tail)).1, (readLine (esc q ++ '"' :: tail)).2) := by
        have : p ++ esc ('"' :: q) ++ '"' :: tail = (p ++ ['"', '"']) ++ (esc q ++ '"' :: tail) := by simp [esc]
        rw [this, readLine_append (by simp [hnl]) (by simp)]
        simp
      rw [e, quotedLoop, (span_at hp).1, (span_at hp).2]
      simp only [if_true]
      simp only [List.length_append, List.length_cons] at hf h
      rw [ih q.length (by omega) _ (by omega) rfl, norm_quote hnl]
      simp
    · -- a line break
      have e : readLine (p ++ esc ('\n' :: q) ++ '"' :: tail) = (dropCR p ++ ['\n'], esc q ++ '"' :: tail) := by
        have : p ++ esc ('\n' :: q) ++ '"' :: tail = p ++ '\n' :: (esc q ++ '"' :: tail) := by simp [esc]
        rw [this, readLine_nl hnl]
      have hq : '"' ∉ dropCR p ++ ['\n'] := by
        intro hm
        rcases List.mem_append.mp hm with hm | hm
        · unfold dropCR at hm
          split at hm
          · exact hp (List.dropLast_subset _ hm)
          · exact hp hm
        · simp at hm
      rw [e, quotedLoop, (span_none hq).2]
      simp only
      rw [if_neg (by simp)]
      simp only [List.length_append, List.length_cons] at hf h
      rw [ih q.length (by omega) _ (by omega) rfl, norm_append hnl]
      simp

/-! ### a record -/

theorem length_readLine (s : Str) : s.length ≤ (readLine s).1.length + (readLine s).2.length + 1 := by
  have cut : ∀ s, (cutLine s).1.length + (if (cutLine s).2.1 = true then 1 else 0) + (cutLine s).2.2.length = s.length := by
    intro s
    induction s with
    | nil => rfl
    | cons c s ih =>
      rw [cutLine]
      split
      · simp; omega
      · show (cutLine s).1.length + 1 + (if (cutLine s).2.1 = true then 1 else 0) + (cutLine s).2.2.length = s.length + 1
        omega
  have drop : ∀ l : Str, l.length ≤ (dropCR l).length + 1 := by
    intro l; unfold dropCR; split
    · simp; omega
    · omega
  have h1 := cut s
  have h2 := drop (cutLine s).1
  unfold readLine
  show s.length ≤ (if (cutLine s).2.1 then dropCR (cutLine s).1 ++ ['\n'] else dropCR (cutLine s).1).length + (cutLine s).2.2.length + 1
  split
  · rename_i h; rw [if_pos h] at h1; simp only [List.length_append, List.length_singleton]; omega
  · rename_i h; rw [if_neg h] at h1; omega

/-- how a record ends, and what is behind it -/
inductive End : Str → Str → Prop where
  | eof : End [] []
  | lf {s} : End ('\n' :: s) s
  | crlf {s} : End ('\r' :: '\n' :: s) s

theorem End.next {tail r : Str} (h : End tail r) : Next tail none r := by
  cases h <;> constructor

theorem End.line {tail r : Str} (h : End tail r) : ((readLine tail).1 = [] ∨ (readLine tail).1 = ['\n']) ∧ (readLine tail).2 = r := by
  cases h with
  | eof => exact ⟨Or.inl rfl, rfl⟩
  | lf => exact ⟨Or.inr rfl, rfl⟩
  | crlf => exact ⟨Or.inr rfl, rfl⟩

theorem esc_length (f : Str) : f.length ≤ (esc f).length := by
  induction f with
  | nil => simp
  | cons c f ih =>
    unfold esc at ih ⊢
    rw [List.flatMap_cons, List.length_append]
    have : 1 ≤ (if c = '"' then ['"', '"'] else [c]).length := by split <;> simp
    simp only [List.length_cons]; omega

/-- a field in quotes at the beginning of the line -/
theorem quoted_here {f tail : Str} {o : Option Str} {r : Str} (hn : Next tail o r) :
    (readLine ('"' :: esc f ++ ['"'] ++ tail)).1.head? = some '"' ∧
    quotedLoop ((readLine ('"' :: esc f ++ ['"'] ++ tail)).1.length + (readLine ('"' :: esc f ++ ['"'] ++ tail)).2.length + 2)
      (readLine ('"' :: esc f ++ ['"'] ++ tail)).1.tail (readLine ('"' :: esc f ++ ['"'] ++ tail)).2 [] = .ok (norm f, o, r) := by
  have e : '"' :: esc f ++ ['"'] ++ tail = '"' :: (esc f ++ '"' :: tail) := by simp
  have hl := length_readLine ('"' :: (esc f ++ '"' :: tail))
  have h2 := esc_length f
  rw [e]
  rw [readLine_quote] at hl ⊢
  refine ⟨rfl, ?_⟩
  simp only [List.length_cons, List.length_append] at hl
  exact quoted_field hn [] (by simp only [List.length_cons]; omega)

theorem chomp_end {f l : Str} (hf : '\n' ∉ f) (hl : l = [] ∨ l = ['\n']) : chomp (f ++ l) = f := by
  unfold chomp
  rcases hl with rfl | rfl
  · rw [List.append_nil, if_neg]
    intro h
    exact hf (List.mem_of_getLast? h)
  · simp

theorem plain_last {f : Str} (h : '\r' ∉ f) : f.getLast? ≠ some '\r' := fun e => h (List.mem_of_getLast? e)

theorem read_record {t : Str} {fs : List Str} (h : RecordText t fs) {tail r : Str} (he : End tail r) {n : Nat} (hn : fs.length ≤ n) :
    fieldsLoop n (readLine (t ++ tail)).1 (readLine (t ++ tail)).2 = .ok (fs.map norm, r) := by
  induction h generalizing n with
  | @one w f hw =>
    obtain ⟨n, rfl⟩ : ∃ m, n = m + 1 := ⟨n - 1, by simp at hn; omega⟩
    rcases hw with ⟨rfl, hs⟩ | rfl
    · have hnl : '\n' ∉ w := fun hm => hs _ hm (by simp)
      have hcr : '\r' ∉ w := fun hm => hs _ hm (by simp)
      have hq : '"' ∉ w := fun hm => hs _ hm (by simp)
      have hc : ',' ∉ w := fun hm => hs _ hm (by simp)
      rw [readLine_append hnl (plain_last hcr)]
      obtain ⟨hl, hr⟩ := he.line
      rw [hr]
      generalize (readLine tail).1 = l at hl
      have hq' : '"' ∉ w ++ l := by rcases hl with rfl | rfl <;> simp [hq]
      have hc' : ',' ∉ w ++ l := by rcases hl with rfl | rfl <;> simp [hc]
      rw [fieldsLoop, if_neg (fun e => hq' (List.mem_of_head? e))]
      simp only [(span_none hc').2, chomp_end hnl hl]
      rw [if_neg hq, List.map_cons, List.map_nil, norm_plain hnl]
    · obtain ⟨h1, h2⟩ := quoted_here (f := f) he.next
      simp only [esc] at h1 h2
      rw [fieldsLoop, if_pos h1, h2]
      rfl
  | @more w f t fs hw ht ih =>
    obtain ⟨n, rfl⟩ : ∃ m, n = m + 1 := ⟨n - 1, by simp at hn; omega⟩
    have ih := ih (n := n) (by simp at hn; omega)
    rcases hw with ⟨rfl, hs⟩ | rfl
    · have hnl : '\n' ∉ w := fun hm => hs _ hm (by simp)
      have hcr : '\r' ∉ w := fun hm => hs _ hm (by simp)
      have hq : '"' ∉ w := fun hm => hs _ hm (by simp)
      have hc : ',' ∉ w := fun hm => hs _ hm (by simp)
      rw [List.append_assoc, readLine_append hnl (plain_last hcr), List.cons_append, readLine_comma]
      rw [fieldsLoop, if_neg]
      · simp only [(span_at hc).1, (span_at hc).2]
        rw [if_neg hq, ih]
        simp only [List.map_cons, norm_plain hnl]
      · intro e
        cases w with
        | nil => simp at e
        | cons c w => simp at e; subst e; simp at hq
    · obtain ⟨h1, h2⟩ := quoted_here (f := f) (tail := ',' :: (t ++ tail)) Next.comma
      simp only [esc] at h1 h2
      rw [List.append_assoc, show (',' :: t) ++ tail = ',' :: (t ++ tail) from rfl]
      rw [fieldsLoop, if_pos h1, h2]
      simp only [ih, List.map_cons]

theorem record_length {t : Str} {fs : List Str} (h : RecordText t fs) : fs.length ≤ t.length + 1 := by
  induction h with
  | one => simp
  | more _ _ ih => simp only [List.length_append, List.length_cons]; omega

theorem record_ne {t : Str} {fs : List Str} (h : RecordText t fs) (h2 : 2 ≤ fs.length) {tail r : Str} (he : End tail r) :
    (readLine (t ++ tail)).1 ≠ [] ∧ (readLine (t ++ tail)).1 ≠ ['\n'] := by
  have hr := read_record h he (n := fs.length + 1) (by omega)
  constructor <;> intro e <;> rw [e, fieldsLoop] at hr <;> simp [chomp] at hr <;>
    · have := congrArg List.length hr.1
      simp at this
      omega

/-- one turn of the loop over the records -/
theorem read_step {t : Str} {fs : List Str} (h : RecordText t fs) (h2 : 2 ≤ fs.length) {tail r : Str} (he : End tail r)
    {want : Option Nat} (hw : want = none ∨ want = some fs.length) (n : Nat) :
    readLoop (n + 1) want (t ++ tail) =
      match readLoop n (some fs.length) r with
      | .error e => .error e
      | .ok rows => .ok (fs.map norm :: rows) := by
  obtain ⟨hne1, hne2⟩ := record_ne h h2 he
  have hne : t ++ tail ≠ [] := by
    intro e; rw [e] at hne1; exact hne1 rfl
  have hl := length_readLine (t ++ tail)
  have hrl := record_length h
  rw [readLoop, if_neg hne]
  simp only
  rw [if_neg (by simp [hne1, hne2]), read_record h he (by simp only [List.length_append] at hl; omega)]
  simp only [List.length_map]
  rw [if_pos hw]
  cases readLoop n (some fs.length) r <;> rfl

theorem read_file {s : Str} {rows : List (List Str)} (h : FileText s rows) {k : Nat} (hk : 2 ≤ k) (hr : ∀ r ∈ rows, r.length = k)
    {want : Option Nat} (hw : want = none ∨ want = some k) {n : Nat} (hn : s.length + 1 ≤ n) :
    readLoop n want s = .ok (rows.map (List.map norm)) := by
  induction h generalizing want n with
  | none =>
    obtain ⟨n, rfl⟩ : ∃ m, n = m + 1 := ⟨n - 1, by omega⟩
    rfl
  | @last t r ht =>
    obtain ⟨n, rfl⟩ : ∃ m, n = m + 1 := ⟨n - 1, by omega⟩
    have e := hr r (by simp)
    have := read_step ht (by omega) End.eof (want := want) (by rw [e]; exact hw) n
    rw [List.append_nil] at this
    rw [this]
    cases n with
    | zero =>
      have := record_length ht
      simp at hn
      subst hn
      simp at this
      omega
    | succ n => rfl
  | @more t r e s rs ht he hs ih =>
    obtain ⟨n, rfl⟩ : ∃ m, n = m + 1 := ⟨n - 1, by omega⟩
    have el := hr r (by simp)
    have hend : End (e ++ s) s := by
      rcases he with rfl | rfl
      · exact .crlf
      · exact .lf
    rw [List.append_assoc, read_step ht (by omega) hend (by rw [el]; exact hw) n, el,
      ih (fun r hr' => hr r (by simp [hr'])) (Or.inr rfl) (by
        have : 1 ≤ e.length := by rcases he with rfl | rfl <;> simp
        simp only [List.length_append] at hn; omega)]
    rfl

/-- C118, reading: a text that stands, by RFC 4180, for rows of the same length, two fields or more, is read as these rows,
except that line breaks inside fields become LF. -/
theorem C118_read {s : Str} {rows : List (List Str)} (h : FileText s rows) {k : Nat} (hk : 2 ≤ k) (hr : ∀ r ∈ rows, r.length = k) :
    readAll s = .ok (rows.map (List.map norm)) := read_file h hk hr (Or.inl rfl) (Nat.le_refl _)

/-! ### writing -/

theorem needsQuotes_false {f : Str} (h : needsQuotes f = false) : ∀ c ∈ f, c ∉ [',', '"', '\r', '\n'] := by
  intro c hc hm
  cases f with
  | nil => cases hc
  | cons d f =>
    unfold needsQuotes at h
    simp only [Bool.or_eq_false_iff] at h
    have := List.any_eq_false.mp h.1.2 c hc
    simp only [List.mem_cons, List.not_mem_nil, or_false] at hm
    rcases hm with rfl | rfl | rfl | rfl <;> simp at this

theorem crlf_plain {f : Str} (h : ∀ c ∈ f, c ∉ [',', '"', '\r', '\n']) : crlf f = f := by
  induction f with
  | nil => rfl
  | cons c f ih =>
    have hc := h c (by simp)
    unfold crlf at ih ⊢
    rw [List.flatMap_cons, ih (fun d hd => h d (by simp [hd])), if_neg (fun e => hc (by simp [e])), if_neg (fun e => hc (by simp [e]))]
    rfl

theorem write_field (f : Str) : FieldText (writeField f) (crlf f) := by
  unfold writeField
  split
  · right
    unfold crlf
    have e : quoteChar = fun c => (if c = '\r' then [] else if c = '\n' then ['\r', '\n'] else [c]).flatMap
        (fun c => if c = '"' then ['"', '"'] else [c]) := by
      funext c
      unfold quoteChar
      by_cases h1 : c = '"'
      · subst h1; decide
      · by_cases h2 : c = '\r'
        · subst h2; decide
        · by_cases h3 : c = '\n'
          · subst h3; decide
          · simp [h1, h2, h3]
    rw [List.flatMap_assoc, e]
  · rename_i h
    have := needsQuotes_false (by simpa using h)
    left
    rw [crlf_plain this]
    exact ⟨rfl, this⟩

theorem write_record {fs : List Str} (h : fs ≠ []) : RecordText (join [','] (fs.map writeField)) (fs.map crlf) := by
  induction fs with
  | nil => exact absurd rfl h
  | cons f fs ih =>
    cases fs with
    | nil => exact .one (write_field f)
    | cons g fs =>
      have := RecordText.more (write_field f) (ih (by simp))
      simpa [join] using this

/-- C118, writing: what is written stands, by RFC 4180, for the rows, but with CR removed and LF replaced by CR LF in every
field. -/
theorem C118_write {rows : List (List Str)} (h : ∀ r ∈ rows, r ≠ []) : FileText (writeAll rows) (rows.map (List.map crlf)) := by
  induction rows with
  | nil => exact .none
  | cons r rows ih =>
    have := FileText.more (write_record (h r (by simp))) (Or.inl rfl) (ih (fun q hq => h q (by simp [hq])))
    simpa [writeAll, writeRecord] using this

theorem norm_crlf (f : Str) : norm (crlf f) = noCR f := by
  induction f with
  | nil => rfl
  | cons c f ih =>
    unfold crlf noCR at ih ⊢
    rw [List.flatMap_cons]
    by_cases h1 : c = '\r'
    · subst h1; simpa using ih
    · by_cases h2 : c = '\n'
      · subst h2
        rw [if_neg (by decide), if_pos rfl, List.filter_cons]
        simp only [List.cons_append, List.nil_append, norm, ih]
        rfl
      · rw [if_neg h1, if_neg h2, List.filter_cons, if_pos (by simpa using h1)]
        rw [List.cons_append, List.nil_append, norm, ih]
        intro s h; exact absurd h h1

/-- C118, both: written and read back, rows of the same length lose exactly the carriage returns in their fields. -/
theorem C118_round_trip {rows : List (List Str)} {k : Nat} (hk : 2 ≤ k) (hr : ∀ r ∈ rows, r.length = k) :
    readAll (writeAll rows) = .ok (rows.map (List.map noCR)) := by
  have h1 : ∀ r ∈ rows, r ≠ [] := by
    intro r hm e; have := hr r hm; rw [e] at this; simp at this; omega
  rw [C118_read (C118_write h1) hk (by
    intro r hm
    obtain ⟨q, hq, rfl⟩ := List.mem_map.mp hm
    rw [List.length_map]; exact hr q hq)]
  simp only [List.map_map]
  congr 2
  funext r
  simp only [Function.comp_apply, List.map_map]
  congr 1
  funext f
  exact norm_crlf f

/-- C118 (partial): rows without carriage returns come back as they were -/
theorem C118_round_trip_partial {rows : List (List Str)} {k : Nat} (hk : 2 ≤ k) (hr : ∀ r ∈ rows, r.length = k)
    (hc : ∀ r ∈ rows, ∀ f ∈ r, '\r' ∉ f) : readAll (writeAll rows) = .ok rows := by
  rw [C118_round_trip hk hr]
  congr 1
  refine (List.map_congr_left (g := id) ?_).trans (List.map_id _)
  intro r hm
  refine (List.map_congr_left (g := id) ?_).trans (List.map_id _)
  intro f hf
  unfold noCR
  refine List.filter_eq_self.mpr ?_
  intro c hcf
  have := hc r hm f hf
  simp only [bne_iff_ne, ne_eq]
  rintro rfl
  exact this hcf

/-! ### Samples -/

/-- a file with quotes, commas and an empty field, in two ways of ending lines -/
def sample : List (List Str) := [["a,b".toList, "c\"d".toList, []], ["é".toList, " x".toList, "1".toList]]

/-- the conditions of the theorems above -/
example : (∀ r ∈ sample, r.length = 3) ∧ (∀ r ∈ sample, r ≠ []) ∧ (∀ r ∈ sample, ∀ f ∈ r, '\r' ∉ f) ∧
    writeAll sample = "\"a,b\",\"c\"\"d\",\r\né,\" x\",1\r\n".toList := by decide +kernel

/-- a text that no writer of the package makes: all fields in quotes, line feeds only, none at the end -/
example : FileText "\"x\",\"y\"\nz,w".toList [["x".toList, "y".toList], ["z".toList, "w".toList]] := by
  have h1 : RecordText "\"x\",\"y\"".toList ["x".toList, "y".toList] :=
    .more (w := "\"x\"".toList) (Or.inr rfl) (.one (Or.inr rfl))
  have h2 : RecordText "z,w".toList ["z".toList, "w".toList] :=
    .more (w := "z".toList) (Or.inl ⟨rfl, by decide⟩) (.one (Or.inl ⟨rfl, by decide⟩))
  exact .more h1 (Or.inr rfl) (.last h2)

/-! ### Counterexamples -/

/-- **C118** fails for a field with a carriage return: it is read back without. -/
theorem C118_violated_cr : ∃ rows : List (List Str), (∀ r ∈ rows, r.length = 3) ∧ ∃ rows', readAll (writeAll rows) = .ok rows' ∧ rows' ≠ rows :=
  ⟨[["a\rb".toList, [], []]], by decide, [["ab".toList, [], []]], by
    rw [C118_round_trip (k := 3) (by omega) (by decide)]; decide +kernel, by decide⟩

/-- **C118** fails for a field with a line feed: by RFC 4180, the text that is written does not stand for it. -/
theorem C118_violated_lf : ∃ rows : List (List Str), (∀ r ∈ rows, r.length = 3) ∧ (∀ r ∈ rows, ∀ f ∈ r, '\r' ∉ f) ∧
    ¬ FileText (writeAll rows) rows := by
  refine ⟨[["a\nb".toList, [], []]], by decide, by decide, ?_⟩
  have key : ∀ t s, RecordText t ["a\nb".toList, [], []] → t ++ s ≠ writeAll [["a\nb".toList, [], []]] := by
    intro t s h e
    have hw : writeAll [["a\nb".toList, [], []]] = '"' :: 'a' :: '\r' :: "\nb\",,\r\n".toList := by decide +kernel
    rw [hw] at e
    cases h with
    | more hf ht =>
      rcases hf with ⟨_, hno⟩ | hq
      · exact hno '\n' (by decide) (by decide)
      · subst hq
        simp at e
  intro h
  generalize hs : writeAll [["a\nb".toList, [], []]] = s at h
  cases h with
  | last h => exact key _ [] h (by rw [List.append_nil]; exact hs.symm)
  | more h he h2 => exact key _ _ h (by rw [← List.append_assoc]; exact hs.symm)

end Go.Csv
