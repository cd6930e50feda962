import Verif.Go.PropsCsv
/-! C118: exactly which texts `encoding/csv` reads, and as what. -/
namespace Go.Csv
open Spec

/-! ### lines -/

theorem unix_line {x t : Str} (hx : '\n' ∉ x) : unix (x ++ '\n' :: t) = dropCR x ++ '\n' :: unix t := by
  induction x with
  | nil => rw [List.nil_append, unix, if_neg (by simp)]; rfl
  | cons c x ih =>
    have ih := ih (fun h => hx (List.mem_cons_of_mem _ h))
    cases x with
    | nil =>
      by_cases hc : c = '\r'
      · subst hc
        rw [List.cons_append, unix, if_pos (by simp), ih]; rfl
      · rw [List.cons_append, unix, if_neg (by simp [hc]), ih]
        have : dropCR [c] = [c] := by simp [dropCR, hc]
        rw [this]; rfl
    | cons d x =>
      have hd : d ≠ '\n' := by rintro rfl; simp at hx
      rw [List.cons_append, unix, if_neg (by simp [hd]), ih]
      unfold dropCR
      simp only [List.getLast?_cons_cons, List.dropLast_cons_cons]
      split <;> simp

theorem unix_last {x : Str} (hx : '\n' ∉ x) : unix x = dropCR x := by
  induction x with
  | nil => rfl
  | cons c x ih =>
    have ih := ih (fun h => hx (List.mem_cons_of_mem _ h))
    cases x with
    | nil =>
      by_cases hc : c = '\r'
      · subst hc; rfl
      · rw [unix, if_neg (by simp [hc])]
        simp [dropCR, hc, unix]
    | cons d x =>
      have hd : d ≠ '\n' := by rintro rfl; simp at hx
      rw [unix, if_neg (by simp [hd]), ih]
      unfold dropCR
      simp only [List.getLast?_cons_cons, List.dropLast_cons_cons]
      split <;> simp

/-- `l` is a line, as `readLine` gives it, and `r` the text behind it -/
def IsLine (l r : Str) : Prop := ('\n' ∉ l ∧ r = []) ∨ ∃ x, '\n' ∉ x ∧ l = x ++ ['\n']

theorem cutLine_spec (s : Str) : '\n' ∉ (cutLine s).1 ∧
    ((cutLine s).2.1 = true ∧ s = (cutLine s).1 ++ '\n' :: (cutLine s).2.2 ∨
     (cutLine s).2.1 = false ∧ s = (cutLine s).1 ∧ (cutLine s).2.2 = []) := by
  induction s with
  | nil => exact ⟨by simp [cutLine], .inr ⟨rfl, rfl, rfl⟩⟩
  | cons c s ih =>
    rw [cutLine]
    split
    · rename_i h; subst h; exact ⟨by simp, .inl ⟨rfl, rfl⟩⟩
    · rename_i h
      obtain ⟨h1, h2⟩ := ih
      simp only
      refine ⟨by simp [h1, Ne.symm h], ?_⟩
      rcases h2 with ⟨a, b⟩ | ⟨a, b, d⟩
      · exact .inl ⟨a, by rw [List.cons_append, ← b]⟩
      · exact .inr ⟨a, by rw [← b], d⟩

theorem dropCR_mem {x : Str} {c : Char} (h : c ∈ dropCR x) : c ∈ x := by
  unfold dropCR at h
  split at h
  · exact List.dropLast_subset _ h
  · exact h

/-- one line of the text -/
theorem readLine_spec (s : Str) : IsLine (readLine s).1 (readLine s).2 ∧ unix s = (readLine s).1 ++ unix (readLine s).2 ∧
    (s ≠ [] → (readLine s).2.length < s.length) := by
  obtain ⟨h1, h2⟩ := cutLine_spec s
  unfold readLine
  generalize cutLine s = q at h1 h2
  obtain ⟨l, b, r⟩ := q
  simp only at h1 h2 ⊢
  have hn : '\n' ∉ dropCR l := fun h => h1 (dropCR_mem h)
  rcases h2 with ⟨rfl, rfl⟩ | ⟨rfl, rfl, rfl⟩
  · refine ⟨.inr ⟨_, hn, rfl⟩, ?_, ?_⟩
    · rw [unix_line h1]; simp
    · intro _; simp; omega
  · refine ⟨.inl ⟨hn, rfl⟩, ?_, ?_⟩
    · rw [unix_last h1]; simp [unix]
    · intro h; simpa using List.length_pos_iff.mpr h

/-- a line behind one of its characters -/
theorem IsLine.behind {a b r : Str} {c : Char} (h : IsLine (a ++ c :: b) r) (hc : c ≠ '\n') : IsLine b r ∧ '\n' ∉ a := by
  rcases h with ⟨h, hr⟩ | ⟨x, hx, e⟩
  · exact ⟨.inl ⟨fun hm => h (by simp [hm]), hr⟩, fun hm => h (by simp [hm])⟩
  · rcases List.eq_nil_or_concat b with rfl | ⟨b, d, rfl⟩
    · have := List.append_inj' e (by simp)
      simp [hc] at this
    · rw [List.concat_eq_append] at e ⊢
      rw [← List.cons_append, ← List.append_assoc] at e
      obtain ⟨e1, e2⟩ := List.append_inj' e (by simp)
      injection e2 with e2
      subst e1 e2
      exact ⟨.inr ⟨b, fun hm => hx (by simp [hm]), rfl⟩, fun hm => hx (by simp [hm])⟩

/-- the part of the text up to a character is in the line, if no line feed comes before -/
theorem IsLine.split {l r p t u : Str} {c : Char} (h : IsLine l r) (hu : r = [] → u = []) (e : l ++ u = p ++ c :: t) (hp : '\n' ∉ p) :
    ∃ m, l = p ++ c :: m ∧ m ++ u = t ∧ (c = '\n' → m = []) ∧ (c ≠ '\n' → IsLine m r) := by
  have key : ∃ m, l = p ++ c :: m ∧ m ++ u = t := by
    rcases List.append_eq_append_iff.mp e with ⟨a, e1, e2⟩ | ⟨a, e1, e2⟩
    · -- the line ends within `p`
      rcases h with ⟨h, hr⟩ | ⟨x, hx, rfl⟩
      · rw [hu hr] at e2; simp at e2
      · rw [e1] at hp; simp at hp
    · cases a with
      | nil =>
        rcases h with ⟨h, hr⟩ | ⟨x, hx, rfl⟩
        · rw [hu hr] at e2; simp at e2
        · rw [List.append_nil] at e1; rw [← e1] at hp; simp at hp
      | cons d a =>
        rw [List.cons_append] at e2
        injection e2 with e2 e3
        subst e2
        exact ⟨a, e1, e3.symm⟩
  obtain ⟨m, rfl, e2⟩ := key
  refine ⟨m, rfl, e2, ?_, fun hc => (h.behind hc).1⟩
  rintro rfl
  rcases h with ⟨h, _⟩ | ⟨x, hx, e⟩
  · simp at h
  · rcases List.eq_nil_or_concat m with rfl | ⟨m, d, rfl⟩
    · rfl
    · rw [List.concat_eq_append, ← List.cons_append, ← List.append_assoc] at e
      obtain ⟨e1, _⟩ := List.append_inj' e (by simp)
      subst e1
      simp at hx

theorem takeWhile_ne {l : Str} {d c : Char} (h : c ∈ l.takeWhile (fun c => c != d)) : c ≠ d := by
  induction l with
  | nil => simp at h
  | cons x l ih =>
    rw [List.takeWhile_cons] at h
    split at h
    · rename_i e
      rcases List.mem_cons.mp h with rfl | h
      · simpa using e
      · exact ih h
    · simp at h

/-! ### a field in quotes -/

/-- how the text goes on behind a field: with a comma and the line `o`, or with the end of the line -/
def After (tail : Str) (o : Option Str) (r : Str) : Prop :=
  match o with
  | some l => IsLine l r ∧ tail = ',' :: (l ++ unix r)
  | none => tail = '\n' :: unix r ∨ (tail = [] ∧ r = [])

theorem quoted_sound : ∀ (n : Nat) (line rest acc f : Str) (o : Option Str) (rest' : Str), IsLine line rest →
    quotedLoop n line rest acc = .ok (f, o, rest') →
    ∃ g tail, f = acc ++ g ∧ line ++ unix rest = esc g ++ '"' :: tail ∧ After tail o rest' ∧ rest'.length ≤ rest.length := by
  intro n
  induction n with
  | zero => intro line rest acc f o rest' _ h; rw [quotedLoop] at h; cases h
  | succ n ih =>
    intro line rest acc f o rest' hl h
    rw [quotedLoop] at h
    have hsplit := List.takeWhile_append_dropWhile (p := fun c => c != '"') (l := line)
    have hpre : '"' ∉ line.takeWhile (fun c => c != '"') := by
      intro hm
      exact takeWhile_ne hm rfl
    have hhead : ∀ x m, line.dropWhile (fun c => c != '"') = x :: m → x = '"' := by
      intro x m e
      have := List.head?_dropWhile_not (fun c => c != '"') line
      rw [e] at this
      simpa using this
    simp only at h
    generalize line.takeWhile (fun c => c != '"') = pre at *
    cases hd : line.dropWhile (fun c => c != '"') with
    | nil =>
      rw [hd] at h hsplit
      simp only at h
      rw [List.append_nil] at hsplit
      subst hsplit
      split at h
      · cases h
      · obtain ⟨s1, s2, s3⟩ := readLine_spec rest
        obtain ⟨g, tail, e1, e2, e3, e4⟩ := ih _ _ _ _ _ _ s1 h
        refine ⟨pre ++ g, tail, by rw [e1]; simp, ?_, e3, ?_⟩
        · rw [s2, e2, esc_append, esc_plain hpre]; simp
        · refine Nat.le_trans e4 ?_
          by_cases hr : rest = []
          · subst hr; exact Nat.le_refl _
          · exact Nat.le_of_lt (s3 hr)
    | cons x more =>
      rw [hd] at h hsplit
      obtain rfl := hhead x more hd
      subst hsplit
      simp only at h
      obtain ⟨hm, _⟩ := hl.behind (by decide)
      cases more with
      | nil =>
        simp only [Except.ok.injEq, Prod.mk.injEq] at h
        obtain ⟨rfl, rfl, rfl⟩ := h
        have hr : rest = [] := by
          rcases hm with ⟨_, h⟩ | ⟨x, _, e⟩
          · exact h
          · simp at e
        subst hr
        exact ⟨pre, [], rfl, by rw [esc_plain hpre]; simp [unix], .inr ⟨rfl, rfl⟩, Nat.le_refl _⟩
      | cons d more =>
        simp only at h
        split at h
        · rename_i e; subst e
          obtain ⟨hm2, _⟩ := IsLine.behind (a := []) hm (by decide)
          obtain ⟨g, tail, e1, e2, e3, e4⟩ := ih _ _ _ _ _ _ hm2 h
          refine ⟨pre ++ '"' :: g, tail, by rw [e1]; simp, ?_, e3, e4⟩
          rw [esc_append, esc_plain hpre, List.append_assoc, List.append_assoc, List.cons_append, List.cons_append, e2]
          simp [esc]
        · split at h
          · rename_i e; subst e
            simp only [Except.ok.injEq, Prod.mk.injEq] at h
            obtain ⟨rfl, rfl, rfl⟩ := h
            obtain ⟨hm2, _⟩ := IsLine.behind (a := []) hm (by decide)
            exact ⟨pre, ',' :: (more ++ unix rest), rfl, by rw [esc_plain hpre]; simp, ⟨hm2, rfl⟩, Nat.le_refl _⟩
          · split at h
            · rename_i e
              obtain ⟨rfl, rfl⟩ := e
              simp only [Except.ok.injEq, Prod.mk.injEq] at h
              obtain ⟨rfl, rfl, rfl⟩ := h
              exact ⟨pre, '\n' :: unix rest, rfl, by rw [esc_plain hpre]; simp, .inl rfl, Nat.le_refl _⟩
            · cases h

theorem unix_nil {r : Str} (h : r = []) : unix r = [] := by subst h; rfl

theorem quoted_complete (g : Str) : ∀ (n : Nat) (line rest acc tail : Str), IsLine line rest → line ++ unix rest = esc g ++ '"' :: tail →
    (tail = [] ∨ (∃ t, tail = ',' :: t) ∨ ∃ t, tail = '\n' :: t) → g.length + 1 ≤ n →
    ∃ o rest', quotedLoop n line rest acc = .ok (acc ++ g, o, rest') ∧ After tail o rest' := by
  induction hk : g.length using Nat.strongRecOn generalizing g with
  | ind k ih =>
    intro n line rest acc tail hl he ht hn
    obtain ⟨n, rfl⟩ : ∃ m, n = m + 1 := ⟨n - 1, by omega⟩
    obtain ⟨p, q, rfl, hp, hnl, hq⟩ := cut_field g
    rw [esc_append, esc_plain hp] at he
    simp only [List.length_append] at hk
    rcases hq with rfl | ⟨q, rfl⟩ | ⟨q, rfl⟩
    · -- the closing quote
      have he' : line ++ unix rest = p ++ '"' :: tail := by rw [he]; simp [esc]
      obtain ⟨m, rfl, e2, _, e3⟩ := hl.split unix_nil he' hnl
      have hm := e3 (by decide)
      rw [quotedLoop, (span_at hp).1, (span_at hp).2]
      simp only [List.append_nil]
      rcases ht with rfl | ⟨t, rfl⟩ | ⟨t, rfl⟩
      · obtain ⟨rfl, e5⟩ := List.append_eq_nil_iff.mp e2
        have hr : rest = [] := by
          rcases hm with ⟨_, h⟩ | ⟨x, _, e⟩
          · exact h
          · simp at e
        exact ⟨none, rest, rfl, .inr ⟨rfl, hr⟩⟩
      · obtain ⟨m', rfl, f2, _, f3⟩ := hm.split (p := []) unix_nil e2 (by simp)
        exact ⟨some m', rest, by simp, f3 (by decide), by rw [f2]⟩
      · obtain ⟨m', rfl, f2, f3, _⟩ := hm.split (p := []) unix_nil e2 (by simp)
        obtain rfl := f3 rfl
        exact ⟨none, rest, by simp, .inl (by rw [← f2]; rfl)⟩
    · -- a doubled quote
      have he' : line ++ unix rest = p ++ '"' :: ('"' :: (esc q ++ '"' :: tail)) := by rw [he]; simp [esc]
      obtain ⟨m, rfl, e2, _, e3⟩ := hl.split unix_nil he' hnl
      obtain ⟨m', rfl, f2, _, f3⟩ := (e3 (by decide)).split (p := []) unix_nil e2 (by simp)
      rw [quotedLoop, (span_at hp).1, (span_at hp).2]
      simp only [List.nil_append, if_true]
      simp only [List.length_cons] at hk
      obtain ⟨o, rest', g1, g2⟩ := ih q.length (by omega) q rfl n m' rest (acc ++ p ++ ['"']) tail (f3 (by decide)) f2 ht (by omega)
      exact ⟨o, rest', by rw [g1]; simp, g2⟩
    · -- a line feed
      have he' : line ++ unix rest = p ++ '\n' :: (esc q ++ '"' :: tail) := by rw [he]; simp [esc]
      obtain ⟨m, rfl, e2, e3, _⟩ := hl.split unix_nil he' hnl
      obtain rfl := e3 rfl
      have hq : '"' ∉ p ++ ['\n'] := by simp [hp]
      rw [quotedLoop, (span_none hq).2]
      simp only
      rw [if_neg (by simp)]
      obtain ⟨s1, s2, _⟩ := readLine_spec rest
      simp only [List.length_cons] at hk
      obtain ⟨o, rest', g1, g2⟩ := ih q.length (by omega) q rfl n _ _ (acc ++ (p ++ ['\n'])) tail s1 (by rw [← s2]; exact e2) ht (by omega)
      exact ⟨o, rest', by rw [g1]; simp, g2⟩

/-! ### a record -/

theorem isLine_chomp {l r : Str} (h : IsLine l r) : (chomp l = l ∧ '\n' ∉ l ∧ r = []) ∨ (l = chomp l ++ ['\n'] ∧ '\n' ∉ chomp l) := by
  rcases h with ⟨h, hr⟩ | ⟨x, hx, rfl⟩
  · left
    refine ⟨?_, h, hr⟩
    unfold chomp
    rw [if_neg (fun e => h (List.mem_of_getLast? e))]
  · right
    have : chomp (x ++ ['\n']) = x := by simp [chomp]
    rw [this]; exact ⟨rfl, hx⟩

theorem fields_sound : ∀ (n : Nat) (line rest : Str) (fs : List Str) (rest' : Str), IsLine line rest → fieldsLoop n line rest = .ok (fs, rest') →
    ∃ t e, LooseRecord t fs ∧ line ++ unix rest = t ++ e ∧ After e none rest' ∧ rest'.length ≤ rest.length := by
  intro n
  induction n with
  | zero => intro line rest fs rest' _ h; rw [fieldsLoop] at h; cases h
  | succ n ih =>
    intro line rest fs rest' hl h
    rw [fieldsLoop] at h
    split at h
    · rename_i hq
      obtain ⟨line, rfl⟩ : ∃ l, line = '"' :: l := by
        cases line with
        | nil => simp at hq
        | cons c l => simp at hq; exact ⟨l, by rw [hq]⟩
      obtain ⟨hl2, _⟩ := IsLine.behind (a := []) hl (by decide)
      rw [List.tail_cons] at h
      split at h
      · cases h
      · rename_i f r' hqq
        simp only [Except.ok.injEq, Prod.mk.injEq] at h
        obtain ⟨rfl, rfl⟩ := h
        obtain ⟨g, tail, e1, e2, e3, e4⟩ := quoted_sound _ _ _ _ _ _ _ hl2 hqq
        rw [List.nil_append] at e1
        subst e1
        exact ⟨_, tail, .one (.inr rfl), by rw [List.cons_append, e2]; simp [esc], e3, e4⟩
      · rename_i f l' r' hqq
        obtain ⟨g, tail, e1, e2, ⟨e3, e3'⟩, e4⟩ := quoted_sound _ _ _ _ _ _ _ hl2 hqq
        rw [List.nil_append] at e1
        subst e1
        split at h
        · cases h
        · rename_i fs2 r2 hrec
          simp only [Except.ok.injEq, Prod.mk.injEq] at h
          obtain ⟨rfl, rfl⟩ := h
          obtain ⟨t, e, i1, i2, i3, i4⟩ := ih _ _ _ _ e3 hrec
          refine ⟨_, e, .more (.inr rfl) i1, ?_, i3, Nat.le_trans i4 e4⟩
          rw [List.cons_append, e2, e3', i2]; simp [esc]
    · rename_i hq
      have hsplit := List.takeWhile_append_dropWhile (p := fun c => c != ',') (l := line)
      have hpre : ',' ∉ line.takeWhile (fun c => c != ',') := by
        intro hm
        exact takeWhile_ne hm rfl
      have hhead : ∀ x m, line.dropWhile (fun c => c != ',') = x :: m → x = ',' := by
        intro x m e
        have := List.head?_dropWhile_not (fun c => c != ',') line
        rw [e] at this
        simpa using this
      simp only at h
      generalize line.takeWhile (fun c => c != ',') = pre at *
      cases hd : line.dropWhile (fun c => c != ',') with
      | nil =>
        rw [hd] at h hsplit
        rw [List.append_nil] at hsplit
        subst hsplit
        simp only at h
        split at h
        · cases h
        · rename_i hnq
          simp only [Except.ok.injEq, Prod.mk.injEq] at h
          obtain ⟨rfl, rfl⟩ := h
          rcases isLine_chomp hl with ⟨e1, e2, rfl⟩ | ⟨e1, e2⟩
          · rw [e1] at hnq ⊢
            exact ⟨pre, [], .one (.inl ⟨rfl, hpre, hnq, e2⟩), by simp [unix], .inr ⟨rfl, rfl⟩, Nat.le_refl _⟩
          · refine ⟨chomp pre, '\n' :: unix rest, .one (.inl ⟨rfl, ?_, hnq, e2⟩), ?_, .inl rfl, Nat.le_refl _⟩
            · intro hm
              apply hpre
              rw [e1]; simp [hm]
            · conv => lhs; rw [e1]
              simp
      | cons x more =>
        rw [hd] at h hsplit
        obtain rfl := hhead x more hd
        subst hsplit
        simp only at h
        split at h
        · cases h
        · rename_i hnq
          obtain ⟨hm, hnl⟩ := hl.behind (by decide)
          split at h
          · cases h
          · rename_i fs2 r2 hrec
            simp only [Except.ok.injEq, Prod.mk.injEq] at h
            obtain ⟨rfl, rfl⟩ := h
            obtain ⟨t, e, i1, i2, i3, i4⟩ := ih _ _ _ _ hm hrec
            refine ⟨_, e, .more (.inl ⟨rfl, hpre, hnq, hnl⟩) i1, ?_, i3, i4⟩
            rw [List.append_assoc, List.cons_append, i2]; simp

theorem length_unix (s : Str) : (unix s).length ≤ s.length := by
  induction s with
  | nil => simp [unix]
  | cons c s ih =>
    rw [unix]
    split <;> simp <;> omega

theorem fields_complete {t : Str} {fs : List Str} (h : LooseRecord t fs) : ∀ (n : Nat) (line rest e : Str), IsLine line rest →
    line ++ unix rest = t ++ e → (e = [] ∨ ∃ u, e = '\n' :: u) → fs.length ≤ n →
    ∃ rest', fieldsLoop n line rest = .ok (fs, rest') ∧ After e none rest' := by
  induction h with
  | @one w f hw =>
    intro n line rest e hl he hend hn
    obtain ⟨n, rfl⟩ : ∃ m, n = m + 1 := ⟨n - 1, by simp at hn; omega⟩
    rcases hw with ⟨rfl, hc, hq, hnl⟩ | rfl
    · -- the line is the field
      have hline : (line = w ∧ e = [] ∧ rest = []) ∨ (line = w ++ ['\n'] ∧ e = '\n' :: unix rest) := by
        rcases hend with rfl | ⟨u, rfl⟩
        · rw [List.append_nil] at he
          rcases hl with ⟨h, hr⟩ | ⟨x, hx, rfl⟩
          · subst hr; left; exact ⟨by simpa [unix] using he, rfl, rfl⟩
          · rw [← he] at hnl; simp at hnl
        · obtain ⟨m, rfl, e2, e3, _⟩ := hl.split unix_nil he hnl
          obtain rfl := e3 rfl
          right; exact ⟨rfl, by rw [← e2]; rfl⟩
      rcases hline with ⟨rfl, rfl, rfl⟩ | ⟨rfl, rfl⟩
      · refine ⟨[], ?_, .inr ⟨rfl, rfl⟩⟩
        rw [fieldsLoop, if_neg (fun e => hq (List.mem_of_head? e))]
        simp only [(span_none hc).2]
        have := chomp_end (l := []) hnl (.inl rfl)
        rw [List.append_nil] at this
        rw [this, if_neg hq]
      · refine ⟨rest, ?_, .inl rfl⟩
        rw [fieldsLoop, if_neg (fun e => (show '"' ∉ w ++ ['\n'] by simp [hq]) (List.mem_of_head? e))]
        simp only [(span_none (show ',' ∉ w ++ ['\n'] by simp [hc])).2]
        rw [chomp_end hnl (.inr rfl), if_neg hq]
    · have he' : line ++ unix rest = [] ++ '"' :: (esc f ++ '"' :: e) := by rw [he]; simp [esc]
      obtain ⟨m, rfl, e2, _, e3⟩ := hl.split unix_nil he' (by simp)
      rw [fieldsLoop, if_pos (by simp)]
      have hlen := congrArg List.length e2
      have h1 := esc_length f
      have h2 := length_unix rest
      simp only [List.length_append, List.length_cons] at hlen
      obtain ⟨o, rest', q1, q2⟩ := quoted_complete f (([] ++ '"' :: m).length + rest.length + 2) m rest [] e (e3 (by decide)) e2
        (hend.imp id .inr) (by simp only [List.nil_append, List.length_cons]; omega)
      have ho : o = none := by
        cases o with
        | none => rfl
        | some l =>
          obtain ⟨_, q2⟩ := q2
          rcases hend with rfl | ⟨u, rfl⟩ <;> simp at q2
      subst ho
      refine ⟨rest', ?_, q2⟩
      rw [List.nil_append] at q1
      rw [List.nil_append, List.tail_cons, q1]
      rfl
  | @more w f t fs hw ht ih =>
    intro n line rest e hl he hend hn
    obtain ⟨n, rfl⟩ : ∃ m, n = m + 1 := ⟨n - 1, by simp at hn; omega⟩
    have hn' : fs.length ≤ n := by simp at hn; omega
    rcases hw with ⟨rfl, hc, hq, hnl⟩ | rfl
    · rw [List.append_assoc, List.cons_append] at he
      obtain ⟨m, rfl, e2, _, e3⟩ := hl.split unix_nil he hnl
      obtain ⟨rest', i1, i2⟩ := ih n m rest e (e3 (by decide)) e2 hend hn'
      refine ⟨rest', ?_, i2⟩
      rw [fieldsLoop, if_neg]
      · simp only [(span_at hc).1, (span_at hc).2]
        rw [if_neg hq, i1]
      · intro e
        cases w with
        | nil => simp at e
        | cons c w => simp at e; subst e; simp at hq
    · have he' : line ++ unix rest = [] ++ '"' :: (esc f ++ '"' :: (',' :: (t ++ e))) := by rw [he]; simp [esc]
      obtain ⟨m, rfl, e2, _, e3⟩ := hl.split unix_nil he' (by simp)
      rw [fieldsLoop, if_pos (by simp)]
      have hlen := congrArg List.length e2
      have h1 := esc_length f
      have h2 := length_unix rest
      simp only [List.length_append, List.length_cons] at hlen
      obtain ⟨o, rest', q1, q2⟩ := quoted_complete f (([] ++ '"' :: m).length + rest.length + 2) m rest [] _ (e3 (by decide)) e2
        (.inr (.inl ⟨_, rfl⟩)) (by simp only [List.nil_append, List.length_cons]; omega)
      cases o with
      | none =>
        rcases q2 with q2 | ⟨q2, _⟩ <;> simp at q2
      | some l =>
        obtain ⟨q2, q3⟩ := q2
        injection q3 with _ q3
        obtain ⟨rest2, i1, i2⟩ := ih n l rest' e q2 q3.symm hend hn'
        refine ⟨rest2, ?_, i2⟩
        rw [List.nil_append] at q1
        rw [List.nil_append, List.tail_cons, q1]
        simp only
        rw [i1]
        rfl

/-! ### the whole text -/

theorem record_head {t : Str} {fs : List Str} (h : LooseRecord t fs) : t.head? ≠ some '\n' := by
  have key : ∀ {w f : Str}, LooseField w f → w.head? ≠ some '\n' := by
    intro w f hw
    rcases hw with ⟨rfl, _, _, h⟩ | rfl
    · exact fun e => h (List.mem_of_head? e)
    · simp
  cases h with
  | one hw => exact key hw
  | @more w f t fs hw _ =>
    have := key hw
    cases w with
    | nil => simp
    | cons c w => simpa using this

theorem loose_record_length {t : Str} {fs : List Str} (h : LooseRecord t fs) : fs.length ≤ t.length + 1 := by
  induction h with
  | one => simp
  | more _ _ ih => simp only [List.length_append, List.length_cons]; omega

theorem read_sound : ∀ (n : Nat) (want : Option Nat) (s : Str) (rows : List (List Str)), readLoop n want s = .ok rows →
    LooseFile (unix s) rows ∧ ∃ k, (∀ r ∈ rows, r.length = k) ∧ (want = none ∨ want = some k) := by
  intro n
  induction n with
  | zero => intro want s rows h; rw [readLoop] at h; cases h
  | succ n ih =>
    intro want s rows h
    rw [readLoop] at h
    split at h
    · rename_i e; subst e
      injection h with h
      subst h
      refine ⟨.none, want.getD 0, by simp, ?_⟩
      cases want <;> simp
    · simp only at h
      obtain ⟨s1, s2, s3⟩ := readLine_spec s
      generalize (readLine s).1 = line at *
      generalize (readLine s).2 = rest at *
      split at h
      · rename_i e
        obtain ⟨i1, i2⟩ := ih _ _ _ h
        rw [s2]
        rcases e with rfl | rfl
        · exact ⟨i1, i2⟩
        · exact ⟨.blank i1, i2⟩
      · rename_i hne
        split at h
        · cases h
        · rename_i fs rest' hrec
          obtain ⟨t, e, f1, f2, f3, _⟩ := fields_sound _ _ _ _ _ s1 hrec
          split at h
          · rename_i hw
            split at h
            · cases h
            · rename_i rows' hrows
              injection h with h
              subst h
              obtain ⟨i1, k, i2, i3⟩ := ih _ _ _ hrows
              simp only [reduceCtorEq, Option.some.injEq, false_or] at i3
              have ht : t ≠ [] := by
                rintro rfl
                rw [List.nil_append] at f2
                rcases f3 with rfl | ⟨rfl, _⟩
                · cases line with
                  | nil => exact hne (.inl rfl)
                  | cons c line =>
                    rw [List.cons_append] at f2
                    injection f2 with f2 f3
                    subst f2
                    obtain ⟨m, e1, _, e3, _⟩ := s1.split (p := []) (c := '\n') (t := line ++ unix rest) unix_nil rfl (by simp)
                    rw [e3 rfl] at e1
                    exact hne (.inr e1)
                · exact hne (.inl (List.append_eq_nil_iff.mp f2).1)
              refine ⟨?_, k, ?_, ?_⟩
              · rw [s2, f2]
                rcases f3 with rfl | ⟨rfl, rfl⟩
                · exact .more f1 ht i1
                · have : rows' = [] := by
                    generalize hu : unix [] = u at i1
                    have hu' : u = [] := by rw [← hu]; rfl
                    cases i1 with
                    | none => rfl
                    | blank => simp at hu'
                    | last _ h => exact absurd hu' h
                    | more => simp at hu'
                  subst this
                  rw [List.append_nil]
                  exact .last f1 ht
              · intro r hr
                rcases List.mem_cons.mp hr with rfl | hr
                · exact i3
                · exact i2 r hr
              · rw [← i3]; exact hw
          · cases h

theorem read_complete : ∀ (n : Nat) (want : Option Nat) (s : Str) (rows : List (List Str)) (k : Nat), LooseFile (unix s) rows →
    (∀ r ∈ rows, r.length = k) → (want = none ∨ want = some k) → s.length < n → readLoop n want s = .ok rows := by
  intro n
  induction n with
  | zero => intro want s rows k _ _ _ h; omega
  | succ n ih =>
    intro want s rows k hf hk hw hn
    rw [readLoop]
    split
    · rename_i e; subst e
      generalize hu : unix [] = u at hf
      have hu' : u = [] := by rw [← hu]; rfl
      cases hf with
      | none => rfl
      | blank => simp at hu'
      | last _ h => exact absurd hu' h
      | more => simp at hu'
    · rename_i hs
      simp only
      obtain ⟨s1, s2, s3⟩ := readLine_spec s
      have s3 := s3 hs
      generalize (readLine s).1 = line at *
      generalize (readLine s).2 = rest at *
      have hnl : ∀ u, line ++ unix rest = '\n' :: u → line = [] ∨ line = ['\n'] := by
        intro u e
        obtain ⟨m, e1, _, e3, _⟩ := s1.split (p := []) unix_nil e (by simp)
        rw [e3 rfl] at e1
        exact .inr e1
      split
      · rename_i e
        rcases e with rfl | rfl
        · rw [s2] at hf
          exact ih _ _ _ k hf hk hw (by omega)
        · rw [s2] at hf
          refine ih _ _ _ k ?_ hk hw (by omega)
          generalize hu : ['\n'] ++ unix rest = u at hf
          cases hf with
          | none => simp at hu
          | blank h => simp at hu; rw [hu]; exact h
          | last h _ =>
            have := record_head h
            rw [← hu] at this; simp at this
          | @more t r s rs h h' _ =>
            have := record_head h
            cases t with
            | nil => exact absurd rfl h'
            | cons c t => simp at hu; simp [← hu.1] at this
      · rename_i hne
        have step : ∀ (t : Str) (r : List Str) (rs : List (List Str)) (e : Str), LooseRecord t r → rows = r :: rs → line ++ unix rest = t ++ e →
            ((e = [] ∧ rs = []) ∨ ∃ u, e = '\n' :: u ∧ LooseFile u rs) →
            (match fieldsLoop (line.length + rest.length + 2) line rest with
              | .error e => .error e
              | .ok (fs, rest') =>
                if want = none ∨ want = some fs.length then
                  match readLoop n (some fs.length) rest' with
                  | .error e => .error e
                  | .ok rows => .ok (fs :: rows)
                else .error ()) = Except.ok rows := by
          rintro t r rs e ht rfl he hend
          have hlen := congrArg List.length he
          have h1 := loose_record_length ht
          have h2 := length_unix rest
          simp only [List.length_append] at hlen
          obtain ⟨rest', f1, f2⟩ := fields_complete ht (line.length + rest.length + 2) line rest e s1 he
            (hend.imp (·.1) (fun ⟨u, h, _⟩ => ⟨u, h⟩)) (by omega)
          have f3 := (fields_sound _ _ _ _ _ s1 f1)
          obtain ⟨_, _, _, _, _, f3⟩ := f3
          rw [f1]
          have hrk : r.length = k := hk r (by simp)
          simp only
          rw [if_pos (by rw [hrk]; exact hw), ih (some r.length) rest' rs k ?_ (fun r' hr' => hk r' (by simp [hr'])) (.inr (by rw [hrk])) (by omega)]
          rcases hend with ⟨rfl, rfl⟩ | ⟨u, rfl, hu⟩
          · rcases f2 with f2 | ⟨_, rfl⟩
            · simp at f2
            · exact .none
          · rcases f2 with f2 | ⟨f2, _⟩
            · injection f2 with _ f2
              rw [← f2]; exact hu
            · simp at f2
        rw [s2] at hf
        generalize hu : line ++ unix rest = u at hf
        cases hf with
        | none => exact absurd (.inl (List.append_eq_nil_iff.mp hu).1) hne
        | blank h => exact absurd (hnl _ hu) hne
        | last h h' => exact step _ _ [] [] h rfl (by rw [hu]; simp) (.inl ⟨rfl, rfl⟩)
        | more h h' hs => exact step _ _ _ _ h rfl hu (.inr ⟨_, rfl, hs⟩)

/-- **C118**, reading exactly: whatever the text, `ReadAll` succeeds with `rows` if and only if the text, once its line ends have been made
uniform, consists of lines that are empty or records, and these are the `rows`, all of the same length.  So every text in which something
else than a comma or the end of the line follows a closing quote, in which a quote is not closed, or in which a field without quotes has
one in it, is refused. -/
theorem C118_exact (s : Str) (rows : List (List Str)) :
    readAll s = .ok rows ↔ LooseFile (unix s) rows ∧ ∃ k, ∀ r ∈ rows, r.length = k := by
  constructor
  · intro h
    obtain ⟨h1, k, h2, _⟩ := read_sound _ _ _ _ h
    exact ⟨h1, k, h2⟩
  · rintro ⟨h1, k, h2⟩
    exact read_complete _ _ _ _ k h1 h2 (.inl rfl) (Nat.lt_succ_self _)

/-- a text that is read: with an empty line, both kinds of line ends, a carriage return inside of a field, and a line break in quotes -/
example : readAll "a\rb,\"c\r\n\"\"d\"\r\n\n1,2\r".toList = .ok [["a\rb".toList, "c\n\"d".toList], ["1".toList, "2".toList]] := by rfl

/-- texts that are refused -/
example : readAll "\"a\"b,c\n".toList = .error () ∧ readAll "\"a,c\n".toList = .error () ∧ readAll "a\"b,c\n".toList = .error () ∧
    readAll "a,b\nc\n".toList = .error () := ⟨rfl, rfl, rfl, rfl⟩

end Go.Csv
