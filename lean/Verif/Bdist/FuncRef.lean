import Verif.Bdist.Hooks
import Verif.Go.RegexpLang
import Verif.Go.Strings
import Verif.Go.PathLemmas
/-! Function references in entry_points.txt. -/
namespace Bdist
open Go

namespace Spec

/-- one or more letters, digits and underscores -/
def Word (w : Str) : Prop :=
  w ≠ [] ∧ ∀ c ∈ w, '0' ≤ c ∧ c ≤ '9' ∨ 'a' ≤ c ∧ c ≤ 'z' ∨ 'A' ≤ c ∧ c ≤ 'Z' ∨ c = '_'

/-- words with dots between them -/
inductive Dotted : Str → Prop
  | word {w : Str} : Word w → Dotted w
  | dot {w r : Str} : Word w → Dotted r → Dotted (w ++ '.' :: r)

/-- what may follow a reference: nothing, or anything in brackets on one line, with white space before it -/
def Extras (e : Str) : Prop :=
  e = [] ∨ ∃ sp x, e = sp ++ '[' :: (x ++ [']']) ∧ (∀ c ∈ sp, c = '\t' ∨ c = '\n' ∨ c = '\x0c' ∨ c = '\r' ∨ c = ' ') ∧ '\n' ∉ x

/-- `val` refers to the object `attr` of the module `mod` -/
def FuncRef (val mod attr : Str) : Prop :=
  Dotted mod ∧ Dotted attr ∧ ∃ e, Extras e ∧ val = mod ++ ':' :: (attr ++ e)

end Spec

theorem wordChar_iff (c : Char) : wordChar c = true ↔ '0' ≤ c ∧ c ≤ '9' ∨ 'a' ≤ c ∧ c ≤ 'z' ∨ 'A' ≤ c ∧ c ≤ 'Z' ∨ c = '_' := by
  simp [wordChar, isDig, or_assoc]

theorem word_iff (w : Str) : Spec.Word w ↔ w ≠ [] ∧ ∀ c ∈ w, wordChar c = true := by
  unfold Spec.Word
  constructor
  · rintro ⟨h1, h2⟩; exact ⟨h1, fun c hc => (wordChar_iff c).mpr (h2 c hc)⟩
  · rintro ⟨h1, h2⟩; exact ⟨h1, fun c hc => (wordChar_iff c).mp (h2 c hc)⟩

/-- words with dots or colons between them -/
inductive Callable : Str → Prop
  | word {w : Str} : Spec.Word w → Callable w
  | sep {w r : Str} {s : Char} : Spec.Word w → s = ':' ∨ s = '.' → Callable r → Callable (w ++ s :: r)

theorem lang_callable (w : Str) : reCallable.Lang w ↔ Callable w := by
  constructor
  · rintro ⟨u, v, rfl, l1, us, rfl, l2⟩
    rw [Re.lang_plus_chr, ← word_iff] at l1
    revert u
    induction us with
    | nil => intro u l1; simpa using Callable.word l1
    | cons x us ih =>
      intro u l1
      obtain ⟨p, q, rfl, ⟨s, rfl, hs⟩, l3⟩ := l2 x (by simp)
      rw [Re.lang_plus_chr, ← word_iff] at l3
      have := ih (fun u hu => l2 u (List.mem_cons_of_mem _ hu)) q l3
      have hs : s = ':' ∨ s = '.' := by simpa using hs
      have := Callable.sep l1 hs this
      simpa using this
  · intro h
    induction h with
    | word h => exact ⟨_, [], by simp, Re.lang_plus_chr.mpr ((word_iff _).mp h), [], rfl, by simp⟩
    | @sep w r s hw hs _ ih =>
      obtain ⟨u, v, rfl, l1, us, rfl, l2⟩ := ih
      refine ⟨w, _, rfl, Re.lang_plus_chr.mpr ((word_iff _).mp hw), ([s] ++ u) :: us, by simp, ?_⟩
      intro x hx
      rcases List.mem_cons.mp hx with rfl | hx
      · exact ⟨[s], u, rfl, ⟨s, rfl, by simpa using hs⟩, l1⟩
      · exact l2 x hx

theorem lang_extras (e : Str) : (Re.opt reExtras).Lang e ↔ Spec.Extras e := by
  have hsp : ∀ c, reSpace c = true ↔ c = '\t' ∨ c = '\n' ∨ c = '\x0c' ∨ c = '\r' ∨ c = ' ' := by
    intro c; simp [reSpace, or_assoc]
  constructor
  · rintro (h | ⟨sp, _, rfl, l1, _, _, rfl, ⟨b, rfl, hb⟩, x, _, rfl, l2, d, rfl, hd⟩)
    · exact Or.inl h
    · right
      rw [Re.lang_star_chr] at l1 l2
      have hb : b = '[' := by simpa [lit] using hb
      have hd : d = ']' := by simpa [lit] using hd
      refine ⟨sp, x, by simp [hb, hd], fun c hc => (hsp c).mp (l1 c hc), ?_⟩
      intro hx
      have := l2 _ hx
      simp at this
  · rintro (h | ⟨sp, x, rfl, h1, h2⟩)
    · exact Or.inl h
    · right
      refine ⟨sp, _, rfl, Re.lang_star_chr.mpr (fun c hc => (hsp c).mpr (h1 c hc)), ['['], _, rfl, ⟨'[', rfl, rfl⟩, x, _, rfl, ?_, ']', rfl, rfl⟩
      rw [Re.lang_star_chr]
      intro c hc
      simp only [decide_eq_true_eq]
      rintro rfl
      exact h2 hc

theorem word_colon {w : Str} (h : Spec.Word w) : ':' ∉ w := by
  intro hm
  have := (word_iff w).mp h |>.2 _ hm
  revert this; decide

theorem dotted_colon {w : Str} (h : Spec.Dotted w) : ':' ∉ w := by
  induction h with
  | word h => exact word_colon h
  | dot h _ ih =>
    intro hm
    rcases List.mem_append.mp hm with hm | hm
    · exact word_colon h hm
    · rcases List.mem_cons.mp hm with hm | hm
      · exact absurd hm (by decide)
      · exact ih hm

theorem dotted_callable {w : Str} (h : Spec.Dotted w) : Callable w := by
  induction h with
  | word h => exact .word h
  | dot h _ ih => exact .sep h (Or.inr rfl) ih

theorem callable_dotted {w : Str} (h : Callable w) (hc : ':' ∉ w) : Spec.Dotted w := by
  induction h with
  | word h => exact .word h
  | @sep w r s hw hs _ ih =>
    rcases hs with rfl | rfl
    · exact absurd (by simp) hc
    · exact .dot hw (ih (fun hm => hc (by simp [hm])))

theorem callable_two {a b : Str} (ha : ':' ∉ a) (hb : ':' ∉ b) : Callable (a ++ ':' :: b) ↔ Spec.Dotted a ∧ Spec.Dotted b := by
  constructor
  · intro h
    generalize hw : a ++ ':' :: b = w at h
    induction h generalizing a with
    | word h => rw [← hw] at h; exact absurd (by simp) (word_colon h)
    | @sep w r s h1 hs h2 ih =>
      rcases List.append_eq_append_iff.mp hw with ⟨as, e1, e2⟩ | ⟨bs, e1, e2⟩
      · cases as with
        | nil =>
          simp only [List.nil_append, List.cons.injEq] at e2
          rw [List.append_nil] at e1
          rw [← e1]
          refine ⟨.word h1, ?_⟩
          rw [e2.2]
          exact callable_dotted h2 (by rw [← e2.2]; exact hb)
        | cons x as =>
          simp only [List.cons_append, List.cons.injEq] at e2
          refine absurd ?_ (word_colon h1)
          rw [e1, ← e2.1]; simp
      · cases bs with
        | nil =>
          simp only [List.nil_append, List.cons.injEq] at e2
          rw [List.append_nil] at e1
          rw [e1]
          refine ⟨.word h1, ?_⟩
          rw [← e2.2]
          exact callable_dotted h2 (by rw [e2.2]; exact hb)
        | cons x bs =>
          simp only [List.cons_append, List.cons.injEq] at e2
          obtain ⟨rfl, e2⟩ := e2
          have hbs : ':' ∉ bs := fun hm => ha (by rw [e1]; simp [hm])
          obtain ⟨i1, i2⟩ := ih hbs e2.symm
          rcases hs with rfl | rfl
          · exact absurd (by rw [e1]; simp) ha
          · rw [e1]; exact ⟨.dot h1 i1, i2⟩
  · rintro ⟨h1, h2⟩
    clear ha hb
    induction h1 with
    | word h => exact .sep h (Or.inl rfl) (dotted_callable h2)
    | dot h _ ih =>
      have := Callable.sep h (Or.inr rfl) ih
      simpa using this

theorem split_two {c a b : Str} : split ':' c = [a, b] ↔ c = a ++ ':' :: b ∧ ':' ∉ a ∧ ':' ∉ b := by
  constructor
  · intro h
    have h1 := join_split ':' c
    rw [h] at h1
    refine ⟨by simpa [join] using h1.symm, split_no_sep (by rw [h]; simp), split_no_sep (by rw [h]; simp)⟩
  · rintro ⟨rfl, h1, h2⟩
    rw [split_cons (sep := ':') (fun c hc e => h1 (by rw [← e]; exact hc)), split_none (sep := ':') (fun c hc e => h2 (by rw [← e]; exact hc))]

theorem callable_chars {w : Str} (h : Callable w) : ∀ c ∈ w, wordChar c = true ∨ c = ':' ∨ c = '.' := by
  induction h with
  | word h => exact fun c hc => Or.inl (((word_iff _).mp h).2 c hc)
  | sep h hs _ ih =>
    intro c hc
    rcases List.mem_append.mp hc with hc | hc
    · exact Or.inl (((word_iff _).mp h).2 c hc)
    · rcases List.mem_cons.mp hc with rfl | hc
      · exact Or.inr hs
      · exact ih c hc

theorem extras_head {e : Str} (h : Spec.Extras e) : ∀ c, e.head? = some c → ¬ (wordChar c = true ∨ c = ':' ∨ c = '.') := by
  rcases h with rfl | ⟨sp, x, rfl, h1, _⟩
  · intro c hc; cases hc
  · intro c hc
    cases sp with
    | nil =>
      simp only [List.nil_append, List.head?_cons, Option.some.injEq] at hc
      subst hc; decide
    | cons d sp =>
      simp only [List.cons_append, List.head?_cons, Option.some.injEq] at hc
      subst hc
      rcases h1 d (by simp) with rfl | rfl | rfl | rfl | rfl <;> decide

/-- texts of one class in front of others: they are the same -/
theorem class_prefix {P : Char → Prop} : ∀ {u u' v v' : Str}, u ++ v = u' ++ v' → (∀ c ∈ u, P c) → (∀ c ∈ u', P c) →
    (∀ c, v.head? = some c → ¬ P c) → (∀ c, v'.head? = some c → ¬ P c) → u = u'
  | [], [], _, _, _, _, _, _, _ => rfl
  | [], c :: u', v, v', e, _, h2, h3, _ => by
    rw [List.nil_append] at e
    subst e
    exact absurd (h2 c (by simp)) (h3 c rfl)
  | c :: u, [], v, v', e, h1, _, _, h4 => by
    rw [List.nil_append] at e
    subst e
    exact absurd (h1 c (by simp)) (h4 c rfl)
  | c :: u, d :: u', v, v', e, h1, h2, h3, h4 => by
    simp only [List.cons_append, List.cons.injEq] at e
    rw [e.1, class_prefix e.2 (fun c hc => h1 c (List.mem_cons_of_mem _ hc)) (fun c hc => h2 c (List.mem_cons_of_mem _ hc)) h3 h4]

/-- what `funcRef` accepts, and what it gives -/
theorem funcRef_iff (val mod attr : Str) : funcRef val = .ok (mod, attr) ↔ Spec.FuncRef val mod attr := by
  have key : ∀ m, reFuncRef.matchFull val = some m → ∃ e, val = group m () ++ e ∧ Callable (group m ()) ∧ Spec.Extras e := by
    intro m hm
    obtain ⟨v, h1, h2, h3⟩ := Re.matchFull_cap hm
    exact ⟨v, h1, (lang_callable _).mp h2, (lang_extras _).mp h3⟩
  constructor
  · intro h
    unfold funcRef at h
    cases hm : reFuncRef.matchFull val with
    | none => rw [hm] at h; cases h
    | some m =>
      rw [hm] at h
      simp only at h
      obtain ⟨e, h1, h2, h3⟩ := key m hm
      split at h
      · rename_i a b hs
        simp only [Except.ok.injEq, Prod.mk.injEq] at h
        obtain ⟨rfl, rfl⟩ := h
        obtain ⟨s1, s2, s3⟩ := split_two.mp hs
        rw [s1] at h1 h2
        obtain ⟨d1, d2⟩ := (callable_two s2 s3).mp h2
        exact ⟨d1, d2, e, h3, by rw [h1]; simp⟩
      · cases h
  · rintro ⟨d1, d2, e, he, rfl⟩
    have hcal : Callable (mod ++ ':' :: attr) := (callable_two (dotted_colon d1) (dotted_colon d2)).mpr ⟨d1, d2⟩
    have hl : reFuncRef.Lang (mod ++ ':' :: (attr ++ e)) :=
      ⟨mod ++ ':' :: attr, e, by simp, (lang_callable _).mpr hcal, (lang_extras _).mpr he⟩
    obtain ⟨m, hm⟩ := Option.isSome_iff_exists.mp ((reFuncRef.matchFull_lang _).mpr hl)
    obtain ⟨e', h1, h2, h3⟩ := key m hm
    have hg : mod ++ ':' :: attr = group m () :=
      class_prefix (P := fun c => wordChar c = true ∨ c = ':' ∨ c = '.') (v := e) (v' := e') (by rw [← h1]; simp) (callable_chars hcal) (callable_chars h2)
        (extras_head he) (extras_head h3)
    unfold funcRef
    rw [hm]
    simp only
    rw [← hg, split_two.mpr ⟨rfl, dotted_colon d1, dotted_colon d2⟩]

theorem funcRef_fun {val a b a' b' : Str} (h : Spec.FuncRef val a b) (h' : Spec.FuncRef val a' b') : a = a' ∧ b = b' := by
  have h1 := (funcRef_iff _ _ _).mpr h
  rw [(funcRef_iff _ _ _).mpr h'] at h1
  cases h1
  exact ⟨rfl, rfl⟩

theorem funcRef_error (val : Str) : funcRef val = .error () ↔ ¬ ∃ mod attr, Spec.FuncRef val mod attr := by
  constructor
  · rintro h ⟨a, b, hf⟩
    rw [(funcRef_iff _ _ _).mpr hf] at h
    cases h
  · intro h
    cases hr : funcRef val with
    | error e => rfl
    | ok x => exact absurd ⟨x.1, x.2, (funcRef_iff _ _ _).mp hr⟩ h

end Bdist
