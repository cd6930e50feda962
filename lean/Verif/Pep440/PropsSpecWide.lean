import Verif.Pep440.PropsSpecGrammar
import Verif.Pep440.PropsWide
/-! C107 whatever the size of the numbers in local labels. -/
namespace Pep440.Spec
open Go

/-- `v` is `w`, but for the local label, of which each segment is kept as `Kept` says -/
def Keeps (w v : Ver) : Prop := AllKept w.loc v.loc ∧ v = { w with loc := v.loc }

/-- the same operators, and the versions as `Keeps` says -/
inductive ClausesKept : List Clause → List Clause → Prop where
  | nil : ClausesKept [] []
  | cons {op : CmpOp} {w v : Ver} {cs ds : List Clause} : Keeps w v → ClausesKept cs ds → ClausesKept (⟨op, w⟩ :: cs) (⟨op, v⟩ :: ds)

end Pep440.Spec

namespace Pep440
open Go Spec

/-- the provisos of C107 for one part, but for the size of numbers -/
structure Plain (p : Str) : Prop where
  longS : '\u017f' ∉ p
  kelvin : '\u212a' ∉ p
  angle : ∀ a c d b, p = a ++ c :: d :: b → c = '<' ∨ c = '>' → d = '=' ∨ Blank [d]
  star : ∀ a d b, p = a ++ d :: (".*".toList ++ b) → ¬ Blank [d]

theorem Plain.infix {x r y : Str} (h : Plain (x ++ r ++ y)) : Plain r where
  longS := fun hm => h.longS (by simp [hm])
  kelvin := fun hm => h.kelvin (by simp [hm])
  angle := fun a c d b e => h.angle (x ++ a) c d (b ++ y) (by rw [e]; simp)
  star := fun a d b e => h.star (x ++ a) d (b ++ y) (by rw [e]; simp)

theorem Plain.read {r : Str} {v : Ver} (h : Plain r) (hp : parseVersion r = .ok v) : ∃ w, Reads r w ∧ Fits w ∧ Keeps w v := by
  obtain ⟨w, a, b, c, d⟩ := (C106_wide_partial r h.longS h.kelvin).1 v hp
  exact ⟨w, a, b, c, d⟩

theorem Plain.write {r : Str} {w : Ver} (h : Plain r) (hr : Reads r w) (hf : Fits w) : ∃ v, parseVersion r = .ok v ∧ Keeps w v := by
  obtain ⟨v, a, b, c⟩ := (C106_wide_partial r h.longS h.kelvin).2.1 w hr hf
  exact ⟨v, a, b, c⟩

theorem Spec.Keeps.loc_nil {w v : Ver} (h : Keeps w v) : w.loc = [] ↔ v.loc = [] := by
  have := h.1
  constructor
  · intro e; rw [e] at this; cases h' : v.loc with
    | nil => rfl
    | cons => rw [h'] at this; cases this
  · intro e; rw [e] at this; cases h' : w.loc with
    | nil => rfl
    | cons => rw [h'] at this; cases this

theorem Spec.Keeps.release {w v : Ver} (h : Keeps w v) : v.release = w.release := by
  have := congrArg (fun x : Ver => x.release) h.2; exact this

theorem Spec.Keeps.dev {w v : Ver} (h : Keeps w v) : v.dev = w.dev := by
  have := congrArg (fun x : Ver => x.dev) h.2; exact this

theorem Spec.ClausesKept.append {a b c d : List Clause} (h : ClausesKept a b) (g : ClausesKept c d) : ClausesKept (a ++ c) (b ++ d) := by
  induction h with
  | nil => exact g
  | cons k _ ih => exact .cons k ih

theorem clause_of_text_wide {u : Str} {c : Clause} (ht : Plain u) (h : ClauseText u c) (hf : Fits c.ver) :
    ∃ v, parseClauses [u] = some (.ok [⟨c.op, v⟩]) ∧ Keeps c.ver v := by
  cases h with
  | @plain op o t w ho hr h2 hl =>
    have tt : Plain t := Plain.infix (x := o) (y := []) (by simpa using ht)
    obtain ⟨v, hp, hk⟩ := tt.write hr hf
    rw [← hk.release] at h2
    have hl : v.loc ≠ [] → op = .strictMatch ∨ op = .strictExclude := fun h => hl (fun e => h (hk.loc_nil.1 e))
    refine ⟨v, ?_, hk⟩
    have good : (op, o) ∈ goodOps → parseClauses [o ++ t] = some (.ok [⟨op, v⟩]) := by
      intro hg
      obtain ⟨a, b⟩ := parseClause_good hp hg h2 (fun h1 h3 => Classical.byContradiction fun h4 => by
        rcases hl h4 with h | h
        · exact h1 h
        · exact h3 h)
      exact parts_of_clause a b
    have angle : ∀ ch : Char, o = [ch] → ch = '<' ∨ ch = '>' → (op, [ch]) ∈ [(CmpOp.lt, "<".toList), (.gt, ">".toList)] →
        parseClauses [o ++ t] = some (.ok [⟨op, v⟩]) := by
      rintro ch rfl hch hm
      cases t with
      | nil => exact absurd hp parse_ne_nil
      | cons d t =>
        have hne : op ≠ .strictMatch ∧ op ≠ .strictExclude := by
          simp only [List.mem_cons, Prod.mk.injEq, List.not_mem_nil, or_false] at hm
          rcases hm with ⟨rfl, -⟩ | ⟨rfl, -⟩ <;> simp
        have hb : Blank [d] := by
          rcases ht.angle [] ch d t rfl hch with rfl | h
          · exact absurd (by simp) (acc_not hp (c := '=') (by decide))
          · exact h
        rw [parse_skip hb] at hp
        exact clause_angle hm hb hp (Classical.byContradiction fun h4 => by
          rcases hl h4 with h | h
          · exact hne.1 h
          · exact hne.2 h)
    simp only [operators, List.mem_cons, Prod.mk.injEq, List.not_mem_nil, or_false] at ho
    rcases ho with ⟨rfl, rfl⟩ | ⟨rfl, rfl⟩ | ⟨rfl, rfl⟩ | ⟨rfl, rfl⟩ | ⟨rfl, rfl⟩ | ⟨rfl, rfl⟩ | ⟨rfl, rfl⟩
    · exact good (by decide)
    · exact good (by decide)
    · exact good (by decide)
    · exact good (by decide)
    · exact good (by decide)
    · exact angle '<' rfl (Or.inl rfl) (by decide)
    · exact angle '>' rfl (Or.inr rfl) (by decide)
  | @wild op o t w ho hr hd hl hb =>
    have tt : Plain t := Plain.infix (x := o) (y := ".*".toList) ht
    obtain ⟨v, hp, hk⟩ := tt.write hr hf
    refine ⟨v, ?_, hk⟩
    have := C16_prefix hp (hk.dev.trans hd) (hk.loc_nil.1 hl)
    have hcm : ',' ∉ t := acc_not hp (by decide)
    simp only [wildOperators, List.mem_cons, Prod.mk.injEq, List.not_mem_nil, or_false] at ho
    rcases ho with ⟨rfl, rfl⟩ | ⟨rfl, rfl⟩
    · exact parts_of_specifier (by simp) (by simp [hcm]) this.1
    · exact parts_of_specifier (by simp) (by simp [hcm]) this.2

theorem text_of_clause_wide {u : Str} {c : Clause} (ht : Plain u) (h : parseClause u = some (.ok c)) (hu : trimSpace u = u) :
    ∃ w, ClauseText u ⟨c.op, w⟩ ∧ Fits w ∧ Keeps w c.ver := by
  unfold parseClause at h
  rw [hu] at h
  split at h
  · cases h
  · cases h
  rename_i op s m dk lk hs
  split at h
  · cases h
  rename_i ver hp
  split at h
  · cases h
  rename_i hm
  split at h
  · cases h
  rename_i hdk
  split at h
  · cases h
  rename_i hlk
  have hc : (⟨op, ver⟩ : Clause) = c := by simpa using h
  subst hc
  have plain : ∀ o, u = o ++ s → (op, o) ∈ operators → (op = .compatible → m = 2) →
      (lk = true → op = .strictMatch ∨ op = .strictExclude) → ∃ w, ClauseText u ⟨op, w⟩ ∧ Fits w ∧ Keeps w ver := by
    intro o e ho h2 hl
    have tt : Plain s := Plain.infix (x := o) (y := []) (by rw [List.append_nil, ← e]; exact ht)
    obtain ⟨w, hr, hf, hk⟩ := tt.read hp
    refine ⟨w, e ▸ .plain ho hr (fun h => by have := h2 h; rw [← hk.release]; omega) ?_, hf, hk⟩
    intro hne
    replace hne : ver.loc ≠ [] := fun e => hne (hk.loc_nil.2 e)
    cases lk with
    | true => exact hl rfl
    | false => exact absurd ⟨by cases hv : ver.loc <;> simp_all, rfl⟩ hlk
  have wild : ∀ o, u = o ++ s ++ ".*".toList → (op, o) ∈ wildOperators → dk = false → lk = false →
      ∃ w, ClauseText u ⟨op, w⟩ ∧ Fits w ∧ Keeps w ver := by
    intro o e ho h2 hl
    have tt : Plain s := Plain.infix (x := o) (y := ".*".toList) (e ▸ ht)
    obtain ⟨w, hr, hf, hk⟩ := tt.read hp
    refine ⟨w, e ▸ .wild ho hr ?_ ?_ ?_, hf, hk⟩
    · rw [← hk.dev]
      cases hv : ver.dev with
      | none => rfl
      | some n => simp [hv, h2] at hdk
    · refine hk.loc_nil.2 ?_
      cases hv : ver.loc with
      | nil => rfl
      | cons x l => simp [hv, hl] at hlk
    · intro a d e'
      exact ht.star (o ++ a) d [] (by rw [e, e']; simp)
  have angle : ∀ ch : Char, hasPrefix u [ch] = true → ch = '<' ∨ ch = '>' → hasPrefix u [ch, '='] = false →
      dropByte (u.drop 1) = some s → ∃ d, u = ch :: d :: s ∧ Blank [d] := by
    intro ch h1 h2 h3 h4
    have e := hasPrefix_split h1
    rcases hx : u.drop 1 with _ | ⟨d, t⟩
    · rw [hx] at h4; cases h4
    · have e : u = ch :: d :: t := by rw [e]; simp only [List.length_cons, List.length_nil]; rw [hx]; rfl
      have hd : Blank [d] := by
        rcases ht.angle [] ch d t e h2 with rfl | h
        · rw [e] at h3; simp [hasPrefix, List.isPrefixOf] at h3
        · exact h
      rw [hx] at h4
      simp only [dropByte, (blank_lt hd).1, if_true, Option.some.injEq] at h4
      subst h4
      exact ⟨d, e, hd⟩
  have angle2 : ∀ ch : Char, (∃ d, u = ch :: d :: s ∧ Blank [d]) → (op, [ch]) ∈ operators → op ≠ .compatible → lk = false →
      ∃ w, ClauseText u ⟨op, w⟩ ∧ Fits w ∧ Keeps w ver := by
    rintro ch ⟨d, e, hd⟩ ho hne hl
    have tt : Plain (d :: s) := Plain.infix (x := [ch]) (y := []) (by rw [List.append_nil]; show Plain (ch :: d :: s); rw [← e]; exact ht)
    rw [← parse_skip hd] at hp
    obtain ⟨w, hr, hf, hk⟩ := tt.read hp
    refine ⟨w, e ▸ ClauseText.plain (o := [ch]) ho hr (fun h => absurd h hne) ?_, hf, hk⟩
    intro hne
    replace hne : ver.loc ≠ [] := fun e => hne (hk.loc_nil.2 e)
    exact absurd ⟨by cases hv : ver.loc <;> simp_all, by simp [hl]⟩ hlk
  have bool : ∀ {b : Bool}, ¬ b = true → b = false := by intro b hb; simpa using hb
  unfold splitOp at hs
  simp only at hs
  split at hs
  · rename_i h1
    cases hs
    exact plain _ (hasPrefix_split h1) (by decide) (fun _ => rfl) (by simp)
  split at hs
  · rename_i h0 h1
    rw [Bool.and_eq_true] at h1
    have e := hasPrefix_split h1.1
    split at hs
    · rename_i h2
      cases hs
      refine wild "==".toList ?_ (by decide) rfl rfl
      rw [List.append_assoc, ← hasSuffix_split h2]; exact e
    · cases hs
      exact plain _ e (by decide) (by simp) (by simp)
  split at hs
  · rename_i h0 h0' h1
    have e := hasPrefix_split h1
    split at hs
    · rename_i h2
      cases hs
      refine wild "!=".toList ?_ (by decide) rfl rfl
      rw [List.append_assoc, ← hasSuffix_split h2]; exact e
    · cases hs
      exact plain _ e (by decide) (by simp) (by simp)
  split at hs
  · rename_i h1
    cases hs
    exact plain _ (hasPrefix_split h1) (by decide) (by simp) (by simp)
  split at hs
  · rename_i h1
    cases hs
    exact plain _ (hasPrefix_split h1) (by decide) (by simp) (by simp)
  rename_i hle hge
  split at hs
  · rename_i h1
    split at hs
    · cases hs
    · rename_i s' hd
      cases hs
      exact angle2 '<' (angle '<' h1 (Or.inl rfl) (bool hle) hd) (by decide) (by simp) rfl
  split at hs
  · rename_i h1
    split at hs
    · cases hs
    · rename_i s' hd
      cases hs
      exact angle2 '>' (angle '>' h1 (Or.inr rfl) (bool hge) hd) (by decide) (by simp) rfl
  cases hs

theorem part_read {p : Str} {cs : List Clause} (ht : Plain p) (h : parseClauses [p] = some (.ok cs)) :
    ∃ ds, PartText p ds ∧ (∀ c ∈ ds, Fits c.ver) ∧ ClausesKept ds cs := by
  obtain ⟨a, b, e, ha, hb⟩ := trimSpace_split p
  by_cases hp : trimSpace p = []
  · simp only [parseClauses, hp, if_true] at h
    have hcs : cs = [] := by simpa using h.symm
    subst hcs
    refine ⟨[], Or.inl ⟨?_, rfl⟩, by simp, .nil⟩
    rw [e, hp]
    intro c hc
    simp only [List.append_nil, List.mem_append] at hc
    exact hc.elim (ha c) (hb c)
  · simp only [parseClauses, hp, if_false] at h
    split at h
    · cases h
    · cases h
    · rename_i c hc
      have hcs : cs = [c] := by simpa using h.symm
      subst hcs
      obtain ⟨w, h1, h2, h3⟩ := text_of_clause_wide (Plain.infix (x := a) (y := b) (e ▸ ht)) hc (trimSpace_idem p)
      exact ⟨[⟨c.op, w⟩], Or.inr ⟨a, _, b, _, e, ha, hb, h1, rfl⟩, by simpa using h2, .cons h3 .nil⟩

theorem part_write {p : Str} {ds : List Clause} (ht : Plain p) (h : PartText p ds) (hf : ∀ c ∈ ds, Fits c.ver) :
    ∃ cs, parseClauses [p] = some (.ok cs) ∧ ClausesKept ds cs := by
  rcases h with ⟨hs, rfl⟩ | ⟨a, t, b, c, rfl, ha, hb, h, rfl⟩
  · exact ⟨[], by simp only [parseClauses, trimSpace_space hs, if_true], .nil⟩
  · obtain ⟨v, h1, h2⟩ := clause_of_text_wide (Plain.infix (x := a) (y := b) ht) h (hf c (by simp))
    exact ⟨_, (parts_around ha hb).trans h1, .cons h2 .nil⟩

/-- C107 (partial), whatever the size of numbers: take a text without U+017F and U+212A in which every `<` and `>` is
followed by `=` or a blank (or ends the text) and no blank stands before a `.*`.  If `ParseSpecifier` accepts it, the
text belongs to PEP 440's grammar of specifiers, its numbers outside local labels fit an `int`, and the clauses returned
are, in order, those the text says, but for numbers in local labels, which come out as `Kept` says (the number itself
below 2^31).  And every text of the grammar whose numbers outside local labels fit an `int` is accepted. -/
theorem C107_wide_partial (s : Str) (h1 : '\u017f' ∉ s) (h2 : '\u212a' ∉ s)
    (h4 : ∀ a c d b, s = a ++ c :: d :: b → c = '<' ∨ c = '>' → d = '=' ∨ Blank [d])
    (h5 : ∀ a d b, s = a ++ d :: (".*".toList ++ b) → ¬ Blank [d]) :
    (∀ sp, parseSpecifier s = some (.ok sp) →
      ∃ ws, SpecifierText s ws ∧ (∀ c ∈ ws, Fits c.ver) ∧ ClausesKept ws sp) ∧
    (∀ ws, SpecifierText s ws → (∀ c ∈ ws, Fits c.ver) →
      ∃ sp, parseSpecifier s = some (.ok sp) ∧ ClausesKept ws sp) := by
  have plain : Plain s := ⟨h1, h2, h4, h5⟩
  clear h1 h2 h4 h5
  constructor
  · intro sp h
    generalize hn : s.length = n
    induction n using Nat.strongRecOn generalizing s sp with
    | _ n ih =>
      rcases comma_split s with hc | ⟨p, t, rfl, hc⟩
      · rw [spec_one hc] at h
        obtain ⟨ws, a, b, c⟩ := part_read plain h
        exact ⟨ws, .one hc a, b, c⟩
      · obtain ⟨cs, ds, a1, a2, rfl⟩ := (spec_more hc).1 h
        obtain ⟨ws, a, b, c⟩ := part_read (Plain.infix (x := []) (y := ',' :: t) (by simpa using plain)) a1
        obtain ⟨ws', a', b', c'⟩ := ih t.length (by rw [← hn]; simp; omega) t
          (Plain.infix (x := p ++ [',']) (y := []) (by simpa using plain)) ds a2 rfl
        refine ⟨ws ++ ws', .more hc a a', ?_, c.append c'⟩
        intro c hm
        exact (List.mem_append.1 hm).elim (b c) (b' c)
  · intro ws h hf
    induction h with
    | one hc hp => rw [spec_one hc]; exact part_write plain hp hf
    | @more p cs t ds hc hp _ ih =>
      obtain ⟨cs', a1, b1⟩ := part_write (Plain.infix (x := []) (y := ',' :: t) (by simpa using plain)) hp
        (fun c hm => hf c (by simp [hm]))
      obtain ⟨ds', a2, b2⟩ := ih (Plain.infix (x := p ++ [',']) (y := []) (by simpa using plain))
        (fun c hm => hf c (by simp [hm]))
      exact ⟨cs' ++ ds', (spec_more hc).2 ⟨cs', ds', a1, a2, rfl⟩, b1.append b2⟩

/-- the provisos and the first half are met by a text with a number beyond an `int` in a local label -/
example : ∃ ws, SpecifierText " ~= 1.4.2 ,, < 2RC1,!=1.4.*, == 1.4.3+a.9223372036854775808".toList ws ∧ ws.length = 4 := by
  have hz : ∀ a c d b, " ~= 1.4.2 ,, < 2RC1,!=1.4.*, == 1.4.3+a.9223372036854775808".toList = a ++ c :: d :: b →
      (c, d) ∈ (" ~= 1.4.2 ,, < 2RC1,!=1.4.*, == 1.4.3+a.9223372036854775808".toList).zip
        (" ~= 1.4.2 ,, < 2RC1,!=1.4.*, == 1.4.3+a.9223372036854775808".toList).tail := fun _ _ _ _ e => adjacent e
  have key : ∀ q ∈ (" ~= 1.4.2 ,, < 2RC1,!=1.4.*, == 1.4.3+a.9223372036854775808".toList).zip
      (" ~= 1.4.2 ,, < 2RC1,!=1.4.*, == 1.4.3+a.9223372036854775808".toList).tail,
      (q.1 = '<' ∨ q.1 = '>' → q.2 = '=' ∨ q.2 ∈ ['\t', '\n', '\x0c', '\r', ' ']) ∧
      (q.2 = '.' → q.1 ∉ ['\t', '\n', '\x0c', '\r', ' ']) := by decide +kernel
  obtain ⟨ws, h1, -, h3⟩ := (C107_wide_partial " ~= 1.4.2 ,, < 2RC1,!=1.4.*, == 1.4.3+a.9223372036854775808".toList
    (by decide) (by decide)
    (fun a c d b e hc => ((key _ (hz a c d b e)).1 hc).imp id (fun h x hx => by rw [List.mem_singleton.1 hx]; exact h))
    (fun a d b e hb => (key _ (hz a d '.' ('*' :: b) e)).2 rfl (hb d (by simp)))).1
    [⟨.compatible, ⟨⟨0, [1, 4, 2], none, none, none⟩, []⟩⟩, ⟨.lt, ⟨⟨0, [2], some ("rc".toList, 1), none, none⟩, []⟩⟩,
     ⟨.prefixExclude, ⟨⟨0, [1, 4], none, none, none⟩, []⟩⟩,
     ⟨.strictMatch, ⟨⟨0, [1, 4, 3], none, none, none⟩, [.str "a".toList, .str "9223372036854775808".toList]⟩⟩]
    (by decide +kernel)
  refine ⟨ws, h1, ?_⟩
  have len : ∀ {a b : List Clause}, ClausesKept a b → a.length = b.length := by
    intro a b h
    induction h with
    | nil => rfl
    | cons _ _ ih => simp [ih]
  rw [len h3]; rfl

end Pep440
