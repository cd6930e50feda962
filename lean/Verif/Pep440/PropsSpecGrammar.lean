import Verif.Pep440.GrammarSpecifier
import Verif.Pep440.PropsGrammar
import Verif.Pep440.PropsSpecParse
/-! Property C107: `ParseSpecifier` against the grammar of PEP 440. -/
namespace Pep440
open Go Spec

theorem small_infix {x r y : Str} (h : SmallLocal (x ++ r ++ y)) : SmallLocal r := by
  intro a d b n e hp hn
  refine h (x ++ a) d (b ++ y) n (by rw [e]; simp) (List.mem_append_right _ hp) hn

theorem dropWhile_space {a s : Str} (ha : Space a) : (a ++ s).dropWhile isSpace = s.dropWhile isSpace := by
  induction a with
  | nil => rfl
  | cons c a ih =>
    rw [List.cons_append, List.dropWhile_cons, if_pos (ha c (by simp))]
    exact ih (fun d hd => ha d (by simp [hd]))

theorem rtrim_space {s b : Str} (hb : Space b) : rtrim (s ++ b) = rtrim s := by
  unfold rtrim
  rw [List.reverse_append, dropWhile_space (fun c hc => hb c (by simpa using hc))]

theorem trimSpace_space {s : Str} (h : Space s) : trimSpace s = [] := by
  rw [trimSpace_eq]
  have := dropWhile_space (s := []) h
  rw [List.append_nil] at this
  rw [this]; rfl

theorem trimSpace_around {a s b : Str} (ha : Space a) (hb : Space b) : trimSpace (a ++ s ++ b) = trimSpace s := by
  rw [trimSpace_eq, trimSpace_eq, List.append_assoc, dropWhile_space ha, List.dropWhile_append]
  split
  · rename_i h
    have h : List.dropWhile isSpace s = [] := by simpa using h
    rw [h]
    have := trimSpace_space hb
    rw [trimSpace_eq] at this
    rw [this]; rfl
  · exact rtrim_space hb

theorem trimSpace_split (s : Str) : ∃ a b, s = a ++ trimSpace s ++ b ∧ Space a ∧ Space b := by
  obtain ⟨b, e, hb⟩ := rtrim_split (s.dropWhile isSpace)
  refine ⟨s.takeWhile isSpace, b, ?_, ?_, hb⟩
  · rw [trimSpace_eq, List.append_assoc, ← e, List.takeWhile_append_dropWhile]
  · intro c hc
    exact List.all_eq_true.1 (List.all_takeWhile (p := isSpace) (l := s)) c hc

/-! ### between two commas -/

theorem parts_around {a s b : Str} (ha : Space a) (hb : Space b) : parseClauses [a ++ s ++ b] = parseClauses [s] := by
  simp only [parseClauses, trimSpace_around ha hb]

theorem parts_of_clause {u : Str} {c : Clause} (h1 : trimSpace u ≠ []) (h2 : parseClause (trimSpace u) = some (.ok c)) :
    parseClauses [u] = some (.ok [c]) := by
  simp only [parseClauses, h1, if_false, h2]

theorem parts_of_specifier {u : Str} {sp : Specifier} (hne : u ≠ []) (hc : ',' ∉ u)
    (h : parseSpecifier u = some (.ok sp)) : parseClauses [u] = some (.ok sp) := by
  unfold parseSpecifier at h
  rwa [fieldsFunc_none hne (by intro c hm; rw [decide_eq_false_iff_not]; rintro rfl; exact hc hm)] at h

/-- the provisos of C107 for one part -/
structure Tame (p : Str) : Prop where
  longS : '\u017f' ∉ p
  kelvin : '\u212a' ∉ p
  small : SmallLocal p
  angle : ∀ a c d b, p = a ++ c :: d :: b → c = '<' ∨ c = '>' → d = '=' ∨ Blank [d]
  star : ∀ a d b, p = a ++ d :: (".*".toList ++ b) → ¬ Blank [d]

theorem Tame.infix {x r y : Str} (h : Tame (x ++ r ++ y)) : Tame r where
  longS := fun hm => h.longS (by simp [hm])
  kelvin := fun hm => h.kelvin (by simp [hm])
  small := small_infix h.small
  angle := fun a c d b e => h.angle (x ++ a) c d (b ++ y) (by rw [e]; simp)
  star := fun a d b e => h.star (x ++ a) d (b ++ y) (by rw [e]; simp)

theorem Tame.reads {r : Str} {v : Ver} (h : Tame r) : parseVersion r = .ok v ↔ Reads r v ∧ Fits v :=
  C106_exact_partial r v h.longS h.kelvin h.small

theorem hasPrefix_split {s p : Str} (h : hasPrefix s p = true) : s = p ++ s.drop p.length := by
  unfold hasPrefix at h
  rw [List.isPrefixOf_iff_prefix] at h
  obtain ⟨t, rfl⟩ := h
  simp

theorem hasSuffix_split {s p : Str} (h : hasSuffix s p = true) : s = trimSuffix s p ++ p := by
  have h0 := h
  unfold hasSuffix at h
  rw [List.isSuffixOf_iff_suffix] at h
  obtain ⟨t, rfl⟩ := h
  unfold trimSuffix
  rw [if_pos h0]
  simp

theorem parse_ne_nil {v : Ver} : parseVersion [] ≠ .ok v := by
  have : parseVersion [] = .error () := by decide +kernel
  rw [this]; intro h; cases h

theorem blank_reSpace {d : Char} : Blank [d] ↔ reSpace d = true := by
  rw [blank_iff]; simp

theorem parse_skip {d : Char} {s : Str} (hd : Blank [d]) : parseVersion (d :: s) = parseVersion s := by
  have := parse_blank (a := [d]) (s := s) (b := []) (blank_iff.1 hd) (by simp)
  simpa using this

theorem reSpace_isSpace {d : Char} (h : Blank [d]) : isSpace d = true := by
  have := h d (by simp)
  simp only [List.mem_cons, List.not_mem_nil, or_false] at this
  rcases this with rfl | rfl | rfl | rfl | rfl <;> decide

theorem blank_lt {d : Char} (h : Blank [d]) : d.toNat < 128 ∧ d ≠ '=' := by
  have := h d (by simp)
  simp only [List.mem_cons, List.not_mem_nil, or_false] at this
  rcases this with rfl | rfl | rfl | rfl | rfl <;> decide

/-- after `<` or `>` and one blank -/
theorem splitOp_angle {d : Char} (hd : Blank [d]) (s : Str) :
    splitOp ('<' :: d :: s) = some (.ok (.lt, s, 1, true, false)) ∧
    splitOp ('>' :: d :: s) = some (.ok (.gt, s, 1, true, false)) := by
  have h := blank_lt hd
  have h2 : ¬ ('=' = d) := fun e => h.2 e.symm
  constructor <;> simp [splitOp, hasPrefix, List.isPrefixOf, dropByte, h.1, h2]

theorem trimSpace_angle {c d : Char} {s : Str} (hc : isSpace c = false) (hs : rtrim s ≠ []) :
    trimSpace (c :: d :: s) = c :: d :: rtrim s := by
  rw [show c :: d :: s = [c] ++ (d :: s) from rfl, trimSpace_op (by simp) (by simpa using hc)]
  have : rtrim (d :: s) = d :: rtrim s := by
    unfold rtrim
    rw [List.reverse_cons, List.dropWhile_append, if_neg]
    · simp
    · intro he; apply hs; unfold rtrim; simpa using he
  rw [this]; rfl

theorem clause_angle {c d : Char} {s : Str} {v : Ver} {op : CmpOp} (ho : (op, [c]) ∈ [(CmpOp.lt, "<".toList), (.gt, ">".toList)])
    (hd : Blank [d]) (h : parseVersion s = .ok v) (hl : v.loc = []) :
    parseClauses [c :: d :: s] = some (.ok [⟨op, v⟩]) := by
  have hp := parse_rtrim h
  have hne : rtrim s ≠ [] := fun e => by rw [e] at hp; exact parse_ne_nil hp
  have hr : 1 ≤ v.release.length := by
    have := (parsed_shape h).release
    rcases hr : v.release with _ | ⟨a, l⟩
    · exact absurd hr this
    · simp
  have hc : isSpace c = false := by
    simp only [List.mem_cons, Prod.mk.injEq, List.not_mem_nil, or_false] at ho
    rcases ho with ⟨-, h⟩ | ⟨-, h⟩ <;> (simp at h; subst h; decide)
  have ht := trimSpace_angle (d := d) hc hne
  apply parts_of_clause (by rw [ht]; simp)
  unfold parseClause
  rw [trimSpace_idem, ht]
  have hs : splitOp (c :: d :: rtrim s) = some (.ok (op, rtrim s, 1, true, false)) := by
    simp only [List.mem_cons, Prod.mk.injEq, List.not_mem_nil, or_false] at ho
    rcases ho with ⟨rfl, h⟩ | ⟨rfl, h⟩ <;> (simp at h; subst h)
    · exact (splitOp_angle hd _).1
    · exact (splitOp_angle hd _).2
  rw [hs]
  simp only [hp]
  rw [if_neg (by omega), if_neg (by simp), if_neg (by simp [hl])]

theorem clause_of_text {u : Str} {c : Clause} (ht : Tame u) (h : ClauseText u c) (hf : Fits c.ver) :
    parseClauses [u] = some (.ok [c]) := by
  cases h with
  | @plain op o t v ho hr h2 hl =>
    have tt : Tame t := Tame.infix (x := o) (y := []) (by simpa using ht)
    have hp := tt.reads.2 ⟨hr, hf⟩
    have good : (op, o) ∈ goodOps → parseClauses [o ++ t] = some (.ok [⟨op, v⟩]) := by
      intro hg
      obtain ⟨a, b⟩ := parseClause_good hp hg h2 (fun h1 h3 => Classical.byContradiction fun h4 => by
        rcases hl h4 with h | h
        · exact h1 h
        · exact h3 h)
      exact parts_of_clause a b
    have angle : ∀ ch : Char, o = [ch] → ch = '<' ∨ ch = '>' → (op, [ch]) ∈ [(CmpOp.lt, "<".toList), (.gt, ">".toList)] →
        parseClauses [o ++ t] = some (.ok [⟨op, v⟩]) := by
      rintro ch rfl hch hm
      cases t with
      | nil => exact absurd hp parse_ne_nil
      | cons d t =>
        have hne : op ≠ .strictMatch ∧ op ≠ .strictExclude := by
          simp only [List.mem_cons, Prod.mk.injEq, List.not_mem_nil, or_false] at hm
          rcases hm with ⟨rfl, -⟩ | ⟨rfl, -⟩ <;> simp
        have hb : Blank [d] := by
          rcases ht.angle [] ch d t rfl hch with rfl | h
          · exact absurd (by simp) (acc_not hp (c := '=') (by decide))
          · exact h
        rw [parse_skip hb] at hp
        exact clause_angle hm hb hp (Classical.byContradiction fun h4 => by
          rcases hl h4 with h | h
          · exact hne.1 h
          · exact hne.2 h)
    simp only [operators, List.mem_cons, Prod.mk.injEq, List.not_mem_nil, or_false] at ho
    rcases ho with ⟨rfl, rfl⟩ | ⟨rfl, rfl⟩ | ⟨rfl, rfl⟩ | ⟨rfl, rfl⟩ | ⟨rfl, rfl⟩ | ⟨rfl, rfl⟩ | ⟨rfl, rfl⟩
    · exact good (by decide)
    · exact good (by decide)
    · exact good (by decide)
    · exact good (by decide)
    · exact good (by decide)
    · exact angle '<' rfl (Or.inl rfl) (by decide)
    · exact angle '>' rfl (Or.inr rfl) (by decide)
  | @wild op o t v ho hr hd hl hb =>
    have tt : Tame t := Tame.infix (x := o) (y := ".*".toList) ht
    have hp := tt.reads.2 ⟨hr, hf⟩
    have := C16_prefix hp hd hl
    have hcm : ',' ∉ t := acc_not hp (by decide)
    simp only [wildOperators, List.mem_cons, Prod.mk.injEq, List.not_mem_nil, or_false] at ho
    rcases ho with ⟨rfl, rfl⟩ | ⟨rfl, rfl⟩
    · exact parts_of_specifier (by simp) (by simp [hcm]) this.1
    · exact parts_of_specifier (by simp) (by simp [hcm]) this.2

theorem text_of_clause {u : Str} {c : Clause} (ht : Tame u) (h : parseClause u = some (.ok c)) (hu : trimSpace u = u) :
    ClauseText u c ∧ Fits c.ver := by
  unfold parseClause at h
  rw [hu] at h
  split at h
  · cases h
  · cases h
  rename_i op s m dk lk hs
  split at h
  · cases h
  rename_i ver hp
  split at h
  · cases h
  rename_i hm
  split at h
  · cases h
  rename_i hdk
  split at h
  · cases h
  rename_i hlk
  have hc : (⟨op, ver⟩ : Clause) = c := by simpa using h
  subst hc
  have plain : ∀ o, u = o ++ s → (op, o) ∈ operators → (op = .compatible → m = 2) →
      (lk = true → op = .strictMatch ∨ op = .strictExclude) → ClauseText u ⟨op, ver⟩ ∧ Fits ver := by
    intro o e ho h2 hl
    have tt : Tame s := Tame.infix (x := o) (y := []) (by rw [List.append_nil, ← e]; exact ht)
    obtain ⟨hr, hf⟩ := tt.reads.1 hp
    refine ⟨e ▸ .plain ho hr (fun h => by have := h2 h; omega) ?_, hf⟩
    intro hne
    cases lk with
    | true => exact hl rfl
    | false => exact absurd ⟨by cases hv : ver.loc <;> simp_all, rfl⟩ hlk
  have wild : ∀ o, u = o ++ s ++ ".*".toList → (op, o) ∈ wildOperators → dk = false → lk = false →
      ClauseText u ⟨op, ver⟩ ∧ Fits ver := by
    intro o e ho h2 hl
    have tt : Tame s := Tame.infix (x := o) (y := ".*".toList) (e ▸ ht)
    obtain ⟨hr, hf⟩ := tt.reads.1 hp
    refine ⟨e ▸ .wild ho hr ?_ ?_ ?_, hf⟩
    · cases hv : ver.dev with
      | none => rfl
      | some n => simp [hv, h2] at hdk
    · cases hv : ver.loc with
      | nil => rfl
      | cons x l => simp [hv, hl] at hlk
    · intro a d e'
      exact ht.star (o ++ a) d [] (by rw [e, e']; simp)
  have angle : ∀ ch : Char, hasPrefix u [ch] = true → ch = '<' ∨ ch = '>' → hasPrefix u [ch, '='] = false →
      dropByte (u.drop 1) = some s → ∃ d, u = ch :: d :: s ∧ Blank [d] := by
    intro ch h1 h2 h3 h4
    have e := hasPrefix_split h1
    rcases hx : u.drop 1 with _ | ⟨d, t⟩
    · rw [hx] at h4; cases h4
    · have e : u = ch :: d :: t := by rw [e]; simp only [List.length_cons, List.length_nil]; rw [hx]; rfl
      have hd : Blank [d] := by
        rcases ht.angle [] ch d t e h2 with rfl | h
        · rw [e] at h3; simp [hasPrefix, List.isPrefixOf] at h3
        · exact h
      rw [hx] at h4
      simp only [dropByte, (blank_lt hd).1, if_true, Option.some.injEq] at h4
      subst h4
      exact ⟨d, e, hd⟩
  have angle2 : ∀ ch : Char, (∃ d, u = ch :: d :: s ∧ Blank [d]) → (op, [ch]) ∈ operators → op ≠ .compatible → lk = false →
      ClauseText u ⟨op, ver⟩ ∧ Fits ver := by
    rintro ch ⟨d, e, hd⟩ ho hne hl
    have tt : Tame (d :: s) := Tame.infix (x := [ch]) (y := []) (by rw [List.append_nil]; show Tame (ch :: d :: s); rw [← e]; exact ht)
    rw [← parse_skip hd] at hp
    obtain ⟨hr, hf⟩ := tt.reads.1 hp
    refine ⟨e ▸ ClauseText.plain (o := [ch]) ho hr (fun h => absurd h hne) ?_, hf⟩
    intro hne
    exact absurd ⟨by cases hv : ver.loc <;> simp_all, by simp [hl]⟩ hlk
  have bool : ∀ {b : Bool}, ¬ b = true → b = false := by intro b hb; simpa using hb
  unfold splitOp at hs
  simp only at hs
  split at hs
  · rename_i h1
    cases hs
    exact plain _ (hasPrefix_split h1) (by decide) (fun _ => rfl) (by simp)
  split at hs
  · rename_i h0 h1
    rw [Bool.and_eq_true] at h1
    have e := hasPrefix_split h1.1
    split at hs
    · rename_i h2
      cases hs
      refine wild "==".toList ?_ (by decide) rfl rfl
      rw [List.append_assoc, ← hasSuffix_split h2]; exact e
    · cases hs
      exact plain _ e (by decide) (by simp) (by simp)
  split at hs
  · rename_i h0 h0' h1
    have e := hasPrefix_split h1
    split at hs
    · rename_i h2
      cases hs
      refine wild "!=".toList ?_ (by decide) rfl rfl
      rw [List.append_assoc, ← hasSuffix_split h2]; exact e
    · cases hs
      exact plain _ e (by decide) (by simp) (by simp)
  split at hs
  · rename_i h1
    cases hs
    exact plain _ (hasPrefix_split h1) (by decide) (by simp) (by simp)
  split at hs
  · rename_i h1
    cases hs
    exact plain _ (hasPrefix_split h1) (by decide) (by simp) (by simp)
  rename_i hle hge
  split at hs
  · rename_i h1
    split at hs
    · cases hs
    · rename_i s' hd
      cases hs
      exact angle2 '<' (angle '<' h1 (Or.inl rfl) (bool hle) hd) (by decide) (by simp) rfl
  split at hs
  · rename_i h1
    split at hs
    · cases hs
    · rename_i s' hd
      cases hs
      exact angle2 '>' (angle '>' h1 (Or.inr rfl) (bool hge) hd) (by decide) (by simp) rfl
  cases hs

theorem part_iff {p : Str} {cs : List Clause} (ht : Tame p) :
    parseClauses [p] = some (.ok cs) ↔ PartText p cs ∧ ∀ c ∈ cs, Fits c.ver := by
  constructor
  · intro h
    obtain ⟨a, b, e, ha, hb⟩ := trimSpace_split p
    by_cases hp : trimSpace p = []
    · simp only [parseClauses, hp, if_true] at h
      have hcs : cs = [] := by simpa using h.symm
      subst hcs
      refine ⟨Or.inl ⟨?_, rfl⟩, by simp⟩
      rw [e, hp]
      intro c hc
      simp only [List.append_nil, List.mem_append] at hc
      exact hc.elim (ha c) (hb c)
    · simp only [parseClauses, hp, if_false] at h
      split at h
      · cases h
      · cases h
      · rename_i c hc
        have hcs : cs = [c] := by simpa using h.symm
        subst hcs
        obtain ⟨h1, h2⟩ := text_of_clause (Tame.infix (x := a) (y := b) (e ▸ ht)) hc (trimSpace_idem p)
        exact ⟨Or.inr ⟨a, _, b, c, e, ha, hb, h1, rfl⟩, by simpa using h2⟩
  · rintro ⟨⟨hs, rfl⟩ | ⟨a, t, b, c, rfl, ha, hb, h, rfl⟩, hf⟩
    · simp only [parseClauses, trimSpace_space hs, if_true]
    · rw [parts_around ha hb]
      exact clause_of_text (Tame.infix (x := a) (y := b) ht) h (hf c (by simp))

/-! ### the whole text -/

theorem spec_one {p : Str} (hc : ',' ∉ p) : parseSpecifier p = parseClauses [p] := by
  unfold parseSpecifier
  by_cases hp : p = []
  · subst hp; rfl
  · rw [fieldsFunc_none hp (by intro c hm; rw [decide_eq_false_iff_not]; rintro rfl; exact hc hm)]

theorem spec_more {p t : Str} (hc : ',' ∉ p) {sp : Specifier} : parseSpecifier (p ++ ',' :: t) = some (.ok sp) ↔
    ∃ cs ds, parseClauses [p] = some (.ok cs) ∧ parseSpecifier t = some (.ok ds) ∧ sp = cs ++ ds := by
  unfold parseSpecifier
  by_cases hp : p = []
  · subst hp
    have : fieldsFunc (fun c => decide (c = ',')) ([] ++ ',' :: t) = fieldsFunc (fun c => decide (c = ',')) t := by
      rw [List.nil_append, fieldsFunc.eq_def]; rfl
    rw [this]
    constructor
    · intro h; exact ⟨[], sp, rfl, h, rfl⟩
    · rintro ⟨cs, ds, h1, h2, rfl⟩
      have : cs = [] := by
        have : parseClauses [[]] = some (.ok []) := rfl
        rw [this] at h1; simpa using h1.symm
      subst this; exact h2
  · rw [fieldsFunc_cons hp (by intro c hm; rw [decide_eq_false_iff_not]; rintro rfl; exact hc hm) (by simp)]
    generalize fieldsFunc (fun c => decide (c = ',')) t = l
    simp only [parseClauses]
    by_cases ht : trimSpace p = []
    · simp only [ht, if_true]
      constructor
      · intro h; exact ⟨[], sp, rfl, h, rfl⟩
      · rintro ⟨cs, ds, h1, h2, rfl⟩
        have : cs = [] := by simpa using h1.symm
        subst this; exact h2
    · simp only [ht, if_false]
      rcases hc : parseClause (trimSpace p) with _ | e | c
      · simp
      · simp
      · rcases hl : parseClauses l with _ | e | cs
        · simp
        · simp
        · simp only
          constructor
          · intro h; exact ⟨[c], cs, rfl, rfl, by simpa using h.symm⟩
          · rintro ⟨cs', ds, h1, h2, rfl⟩
            simp at h1 h2
            subst h1 h2; rfl

theorem comma_split (s : Str) : ',' ∉ s ∨ ∃ p t, s = p ++ ',' :: t ∧ ',' ∉ p := by
  induction s with
  | nil => exact Or.inl (by simp)
  | cons c s ih =>
    by_cases hc : c = ','
    · subst hc; exact Or.inr ⟨[], s, rfl, by simp⟩
    · rcases ih with h | ⟨p, t, rfl, h⟩
      · exact Or.inl (by simp [h, Ne.symm hc])
      · exact Or.inr ⟨c :: p, t, rfl, by simp [h, Ne.symm hc]⟩

/-- C107 (partial): take a text without U+017F and U+212A, in which between two commas every digit run behind a `+` is
below 2^31, every `<` and `>` is followed by `=` or a blank (or ends the text), and no blank stands before a `.*`.
`ParseSpecifier` accepts it exactly if it belongs to PEP 440's grammar of specifiers and its numbers fit an `int`, and
returns the clauses it says, in order.  Without the provisos it is false: `C106_violated_fold`, `C106_violated_wrap`,
`C107_violated_angle`, `C107_violated_blank`. -/
theorem C107_exact_partial (s : Str) (sp : Specifier) (h1 : '\u017f' ∉ s) (h2 : '\u212a' ∉ s)
    (h3 : ∀ a p b, s = a ++ p ++ b → ',' ∉ p → SmallLocal p)
    (h4 : ∀ a c d b, s = a ++ c :: d :: b → c = '<' ∨ c = '>' → d = '=' ∨ Blank [d])
    (h5 : ∀ a d b, s = a ++ d :: (".*".toList ++ b) → ¬ Blank [d]) :
    parseSpecifier s = some (.ok sp) ↔ SpecifierText s sp ∧ ∀ c ∈ sp, Fits c.ver := by
  have tame : ∀ x p y, s = x ++ p ++ y → ',' ∉ p → Tame p := fun x p y e hc =>
    { longS := fun hm => h1 (by rw [e]; simp [hm])
      kelvin := fun hm => h2 (by rw [e]; simp [hm])
      small := h3 x p y e hc
      angle := fun a c d b e' => h4 (x ++ a) c d (b ++ y) (by rw [e, e']; simp)
      star := fun a d b e' => h5 (x ++ a) d (b ++ y) (by rw [e, e']; simp) }
  clear h1 h2 h3 h4 h5
  constructor
  · intro h
    generalize hn : s.length = n
    induction n using Nat.strongRecOn generalizing s sp with
    | _ n ih =>
      rcases comma_split s with hc | ⟨p, t, rfl, hc⟩
      · rw [spec_one hc] at h
        obtain ⟨a, b⟩ := (part_iff (tame [] s [] (by simp) hc)).1 h
        exact ⟨.one hc a, b⟩
      · obtain ⟨cs, ds, a1, a2, rfl⟩ := (spec_more hc).1 h
        obtain ⟨a, b⟩ := (part_iff (tame [] p (',' :: t) (by simp) hc)).1 a1
        obtain ⟨a', b'⟩ := ih t.length (by rw [← hn]; simp; omega) t ds
          (fun x q y e hq => tame (p ++ ',' :: x) q y (by rw [e]; simp) hq) a2 rfl
        refine ⟨.more hc a a', ?_⟩
        intro c hm
        exact (List.mem_append.1 hm).elim (b c) (b' c)
  · rintro ⟨h, hf⟩
    induction h with
    | one hc hp => rw [spec_one hc]; exact (part_iff (tame [] _ [] (by simp) hc)).2 ⟨hp, hf⟩
    | @more p cs t ds hc hp _ ih =>
      refine (spec_more hc).2 ⟨cs, ds, ?_, ?_, rfl⟩
      · exact (part_iff (tame [] p (',' :: t) (by simp) hc)).2 ⟨hp, fun c hm => hf c (by simp [hm])⟩
      · exact ih (fun x q y e hq => tame (p ++ ',' :: x) q y (by rw [e]; simp) hq) (fun c hm => hf c (by simp [hm]))

theorem adjacent {s a b : Str} {c d : Char} (e : s = a ++ c :: d :: b) : (c, d) ∈ s.zip s.tail := by
  subst e
  induction a with
  | nil => simp
  | cons x a ih =>
    cases a with
    | nil => simp
    | cons y a => simp only [List.cons_append, List.tail_cons, List.zip_cons_cons, List.mem_cons] at ih ⊢; exact Or.inr ih

/-- every proviso and both sides are met by a text with four clauses and an empty part -/
example : SpecifierText " ~= 1.4.2 ,, < 2RC1,!=1.4.*, == 1.4.3+Ubuntu.1".toList
    [⟨.compatible, ⟨⟨0, [1, 4, 2], none, none, none⟩, []⟩⟩, ⟨.lt, ⟨⟨0, [2], some ("rc".toList, 1), none, none⟩, []⟩⟩,
     ⟨.prefixExclude, ⟨⟨0, [1, 4], none, none, none⟩, []⟩⟩,
     ⟨.strictMatch, ⟨⟨0, [1, 4, 3], none, none, none⟩, [.str "ubuntu".toList, .int 1]⟩⟩] := by
  refine ((C107_exact_partial _ _ (by decide) (by decide) ?_ ?_ ?_).1 (by decide +kernel)).1
  · intro a p b e _
    have := small_of_length (x := " ~= 1.4.2 ,, < 2RC1,!=1.4.*, == 1.4.3".toList) (y := "Ubuntu.1".toList)
      (by decide) (by decide)
    exact small_infix (x := a) (y := b) (e ▸ this)
  · intro a c d b e hc
    have h := adjacent e
    have key : ∀ q ∈ (" ~= 1.4.2 ,, < 2RC1,!=1.4.*, == 1.4.3+Ubuntu.1".toList).zip
        (" ~= 1.4.2 ,, < 2RC1,!=1.4.*, == 1.4.3+Ubuntu.1".toList).tail,
        q.1 = '<' ∨ q.1 = '>' → q.2 = '=' ∨ q.2 ∈ ['\t', '\n', '\x0c', '\r', ' '] := by decide
    exact (key _ h hc).imp id (fun h x hx => by rw [List.mem_singleton.1 hx]; exact h)
  · intro a d b e hb
    have h := adjacent (b := '*' :: b) e
    have key : ∀ q ∈ (" ~= 1.4.2 ,, < 2RC1,!=1.4.*, == 1.4.3+Ubuntu.1".toList).zip
        (" ~= 1.4.2 ,, < 2RC1,!=1.4.*, == 1.4.3+Ubuntu.1".toList).tail,
        q.2 = '.' → q.1 ∉ ['\t', '\n', '\x0c', '\r', ' '] := by decide
    exact key _ h rfl (hb d (by simp))

theorem reads_chars {s : Str} {v : Ver} (h : Reads s v) {c : Char} (hc : c ∈ s)
    (h1 : c ∉ ['\t', '\n', '\x0c', '\r', ' ']) : asciiLower c ∈ "abcdefghijklmnopqrstuvwxyz0123456789.-_!+".toList := by
  obtain ⟨a, body, b, w, e, ha, hb, hs, hsay⟩ := h
  rw [e] at hc
  simp only [List.mem_append] at hc
  rcases hc with (h | h) | h
  · exact absurd (ha c h) h1
  · have h' : asciiLower c ∈ w.map asciiLower := by
      rw [← show body.map asciiLower = w.map asciiLower from hs]; exact List.mem_map_of_mem h
    rw [List.mem_map] at h'
    obtain ⟨d, hd, hd'⟩ := h'
    have := says_chars hsay d hd
    have key : ∀ d ∈ "abcdefghijklmnopqrstuvwxyz0123456789.-_!+".toList, asciiLower d = d := by decide
    rw [← hd', key d this]; exact this
  · exact absurd (hb c h) h1

/-- C107 is violated for `<` and `>` not followed by a blank: `<10` is read as `<0`. -/
theorem C107_violated_angle : ∃ c d, SpecifierText "<10".toList [c] ∧ Fits c.ver ∧
    parseSpecifier "<10".toList = some (.ok [d]) ∧ c.ver.release = [10] ∧ d.ver.release = [0] := by
  have hr := (C106_exact_partial "10".toList ⟨⟨0, [10], none, none, none⟩, []⟩ (by decide) (by decide)
    (small_of_none (by decide))).1 (by decide +kernel)
  refine ⟨⟨.lt, ⟨⟨0, [10], none, none, none⟩, []⟩⟩, ⟨.lt, ⟨⟨0, [0], none, none, none⟩, []⟩⟩, ?_, hr.2,
    by decide +kernel, rfl, rfl⟩
  refine .one (by decide) (Or.inr ⟨[], "<10".toList, [], _, by simp, by simp [Space], by simp [Space], ?_, rfl⟩)
  exact ClauseText.plain (o := "<".toList) (by decide) hr.1 (by simp) (by simp)

/-- C107 is violated for a blank before `.*`: `==1 .*` is accepted, though it is outside the grammar. -/
theorem C107_violated_blank : ∃ sp, parseSpecifier "==1 .*".toList = some (.ok sp) ∧
    ∀ sp', ¬ SpecifierText "==1 .*".toList sp' := by
  refine ⟨[⟨.prefixMatch, ⟨⟨0, [1], none, none, none⟩, []⟩⟩], by decide +kernel, ?_⟩
  intro sp' h
  generalize hs : "==1 .*".toList = s at h
  cases h with
  | more hc hp ht => exact absurd (by rw [hs]; simp) (show ',' ∉ "==1 .*".toList by decide)
  | one hc hp =>
    subst hs
    rcases hp with ⟨h, -⟩ | ⟨a, t, b, c, e, ha, hb, ht, -⟩
    · have := h '=' (by decide); revert this; decide
    · have ea : a = [] := by
        rcases a with _ | ⟨x, a⟩
        · rfl
        · have : x = '=' := by
            have := congrArg List.head? e; simp at this; exact this.symm
          have := ha x (by simp); subst x; exact absurd this (by decide)
      have eb : b = [] := by
        rcases List.eq_nil_or_concat b with rfl | ⟨b', x, rfl⟩
        · rfl
        · have : x = '*' := by
            have := congrArg List.getLast? e; simp at this; exact this.symm
          have := hb x (by simp); subst x; exact absurd this (by decide)
      subst ea eb
      simp only [List.nil_append, List.append_nil] at e
      generalize hs : "==1 .*".toList = s at e
      subst e
      cases ht with
      | @plain op o t v ho hr _ _ =>
        have hm : '*' ∈ o ++ t := by rw [← hs]; decide
        rcases List.mem_append.1 hm with h | h
        · revert ho h; clear hr hm hs
          have key : ∀ q ∈ operators, '*' ∉ q.2 := by decide
          intro ho h; exact key _ ho h
        · have := reads_chars hr h (by decide); revert this; decide
      | @wild op o t v ho hr _ _ hb =>
        have ho' : o.length = 2 := by
          have key : ∀ q ∈ wildOperators, q.2.length = 2 := by decide
          exact key _ ho
        have h2 := congrArg (fun l => (l.drop 2).take 2) hs
        have hl : t.length = 2 := by
          have := congrArg List.length hs; simp [ho'] at this; omega
        have e : t = "1 ".toList := by
          have : ((o ++ t ++ ".*".toList).drop 2).take 2 = t := by
            rw [List.append_assoc, ← ho', List.drop_left, ho', ← hl, List.take_left]
          simp only [this] at h2
          exact h2.symm
        exact hb "1".toList ' ' (by rw [e]; rfl) (by simp [Blank])

end Pep440
