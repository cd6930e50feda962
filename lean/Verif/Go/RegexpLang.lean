import Verif.Go.RegexpLemmas
/-! The matcher of Verif/Go/Regexp.lean against the language of a regular expression. -/
namespace Go
variable {γ : Type}

/-- the language of a regular expression, as in any textbook -/
def Re.Lang : Re γ → Str → Prop
  | .eps, w => w = []
  | .chr p, w => ∃ c, w = [c] ∧ p c = true
  | .seq a b, w => ∃ u v, w = u ++ v ∧ a.Lang u ∧ b.Lang v
  | .alt a b, w => a.Lang w ∨ b.Lang w
  | .opt a, w => w = [] ∨ a.Lang w
  | .star a, w => ∃ us : List Str, w = us.flatten ∧ ∀ u ∈ us, a.Lang u
  | .cap _ a, w => a.Lang w

/-- the ways a regular expression can match a beginning of a text are those of its language -/
theorem Re.run_lang (r : Re γ) (s t : Str) : (∃ c, (c, t) ∈ r.run s) ↔ ∃ w, s = w ++ t ∧ r.Lang w := by
  induction r generalizing s t with
  | eps => simp [Re.run, Re.Lang, eq_comm]
  | chr p =>
    cases s with
    | nil =>
      simp only [Re.run, Re.Lang]
      constructor
      · rintro ⟨c, h⟩; cases h
      · rintro ⟨w, h, c, rfl, _⟩; simp at h
    | cons d s =>
      simp only [Re.run, Re.Lang]
      constructor
      · rintro ⟨c, h⟩
        split at h
        · rename_i hp
          simp only [List.mem_singleton, Prod.mk.injEq] at h
          exact ⟨[d], by simp [h.2], d, rfl, hp⟩
        · cases h
      · rintro ⟨w, h, c, rfl, hp⟩
        simp only [List.cons_append, List.nil_append, List.cons.injEq] at h
        rw [h.1, if_pos hp, h.2]
        exact ⟨[], by simp⟩
  | seq a b iha ihb =>
    simp only [Re.run, Re.Lang, List.mem_flatMap, List.mem_map]
    constructor
    · rintro ⟨c, p, hp, q, hq, e⟩
      obtain ⟨w1, e1, l1⟩ := (iha s p.2).mp ⟨p.1, hp⟩
      obtain ⟨w2, e2, l2⟩ := (ihb p.2 q.2).mp ⟨q.1, hq⟩
      have e : q.2 = t := congrArg (·.2) e
      exact ⟨w1 ++ w2, by rw [e1, e2, e, List.append_assoc], w1, w2, rfl, l1, l2⟩
    · rintro ⟨w, rfl, u, v, rfl, l1, l2⟩
      obtain ⟨c1, h1⟩ := (iha (u ++ v ++ t) (v ++ t)).mpr ⟨u, by simp, l1⟩
      obtain ⟨c2, h2⟩ := (ihb (v ++ t) t).mpr ⟨v, rfl, l2⟩
      exact ⟨c1 ++ c2, (c1, v ++ t), h1, (c2, t), h2, rfl⟩
  | alt a b iha ihb =>
    simp only [Re.run, Re.Lang, List.mem_append]
    constructor
    · rintro ⟨c, h | h⟩
      · obtain ⟨w, e, l⟩ := (iha s t).mp ⟨c, h⟩; exact ⟨w, e, Or.inl l⟩
      · obtain ⟨w, e, l⟩ := (ihb s t).mp ⟨c, h⟩; exact ⟨w, e, Or.inr l⟩
    · rintro ⟨w, e, l | l⟩
      · obtain ⟨c, h⟩ := (iha s t).mpr ⟨w, e, l⟩; exact ⟨c, Or.inl h⟩
      · obtain ⟨c, h⟩ := (ihb s t).mpr ⟨w, e, l⟩; exact ⟨c, Or.inr h⟩
  | opt a iha =>
    simp only [Re.run, Re.Lang, List.mem_append, List.mem_singleton, Prod.mk.injEq]
    constructor
    · rintro ⟨c, h | h⟩
      · obtain ⟨w, e, l⟩ := (iha s t).mp ⟨c, h⟩; exact ⟨w, e, Or.inr l⟩
      · exact ⟨[], by simp [h.2], Or.inl rfl⟩
    · rintro ⟨w, e, rfl | l⟩
      · exact ⟨[], Or.inr ⟨rfl, by simpa using e.symm⟩⟩
      · obtain ⟨c, h⟩ := (iha s t).mpr ⟨w, e, l⟩; exact ⟨c, Or.inl h⟩
  | star a iha =>
    constructor
    · rintro ⟨c, h⟩
      have := Re.star_ind a (fun s p => ∃ us : List Str, s = us.flatten ++ p.2 ∧ ∀ u ∈ us, a.Lang u) (fun s => ⟨[], by simp, by simp⟩) ?_ s (c, t) h
      · obtain ⟨us, e, l⟩ := this
        exact ⟨us.flatten, e, us, rfl, l⟩
      · rintro s p q hp _ _ ⟨us, e, l⟩
        obtain ⟨w, e1, l1⟩ := (iha s p.2).mp ⟨p.1, hp⟩
        refine ⟨w :: us, by rw [e1, e]; simp, ?_⟩
        intro u hu
        rcases List.mem_cons.mp hu with rfl | hu
        · exact l1
        · exact l u hu
    · rintro ⟨w, rfl, us, rfl, l⟩
      induction us with
      | nil => exact ⟨[], by rw [Re.run_star]; simp⟩
      | cons u us ih =>
        obtain ⟨c, hc⟩ := ih (fun u hu => l u (List.mem_cons_of_mem _ hu))
        by_cases hu : u = []
        · subst hu
          exact ⟨c, by simpa using hc⟩
        · obtain ⟨c1, h1⟩ := (iha ((u :: us).flatten ++ t) (us.flatten ++ t)).mpr ⟨u, by simp, l u (by simp)⟩
          refine ⟨c1 ++ c, ?_⟩
          rw [Re.run_star, List.mem_append]
          left
          simp only [List.mem_flatMap, List.mem_filter, decide_eq_true_eq, List.mem_map]
          refine ⟨(c1, us.flatten ++ t), ⟨h1, ?_⟩, (c, t), hc, rfl⟩
          have : 0 < u.length := List.length_pos_iff.mpr hu
          simp
          omega
  | cap n a iha =>
    simp only [Re.run, Re.Lang, List.mem_map]
    constructor
    · rintro ⟨c, p, hp, e⟩
      have e : p.2 = t := congrArg (·.2) e
      exact (iha s t).mp ⟨p.1, by rw [← e]; exact hp⟩
    · intro h
      obtain ⟨c, hc⟩ := (iha s t).mpr h
      exact ⟨_, (c, t), hc, rfl⟩

/-- whether `^r$` matches -/
theorem Re.matchFull_lang (r : Re γ) (s : Str) : (r.matchFull s).isSome = true ↔ r.Lang s := by
  unfold Re.matchFull
  rw [Option.isSome_map, List.find?_isSome]
  constructor
  · rintro ⟨p, hp, he⟩
    have he : p.2 = [] := by simpa using he
    obtain ⟨w, e, l⟩ := (r.run_lang s []).mp ⟨p.1, by rw [← he]; exact hp⟩
    rw [e, List.append_nil]
    exact l
  · intro h
    obtain ⟨c, hc⟩ := (r.run_lang s []).mpr ⟨s, by simp, h⟩
    exact ⟨(c, []), hc, rfl⟩

/-- a match of `^(?P<n>a)b$`: the group has a word of `a`, what follows is one of `b` -/
theorem Re.matchFull_cap [DecidableEq γ] {a b : Re γ} {n : γ} {s : Str} {m : Caps γ} (h : (Re.seq (.cap n a) b).matchFull s = some m) :
    ∃ v, s = group m n ++ v ∧ a.Lang (group m n) ∧ b.Lang v := by
  unfold Re.matchFull at h
  rw [Option.map_eq_some_iff] at h
  obtain ⟨p, hp, rfl⟩ := h
  have hmem := List.mem_of_find?_eq_some hp
  have he : p.2 = [] := by simpa using List.find?_some hp
  simp only [Re.run, List.mem_flatMap, List.mem_map] at hmem
  obtain ⟨_, ⟨q, hq, rfl⟩, t, ht, rfl⟩ := hmem
  obtain ⟨u, e1, l1⟩ := (a.run_lang s q.2).mp ⟨q.1, hq⟩
  obtain ⟨v, e2, l2⟩ := (b.run_lang q.2 t.2).mp ⟨t.1, ht⟩
  have hg : group (((n, s.take (s.length - q.2.length)) :: q.1) ++ t.1) n = u := by
    rw [take_split e1]
    simp [group]
  simp only at he ⊢
  rw [hg]
  refine ⟨v, ?_, l1, l2⟩
  rw [e1, e2, he, List.append_nil]

/-- words of one class -/
theorem Re.lang_star_chr {p : Char → Bool} {w : Str} : (Re.star (.chr p) : Re γ).Lang w ↔ ∀ c ∈ w, p c = true := by
  constructor
  · rintro ⟨us, rfl, l⟩ c hc
    obtain ⟨u, hu, hcu⟩ := List.mem_flatten.mp hc
    obtain ⟨d, rfl, hd⟩ := l u hu
    rw [List.mem_singleton] at hcu
    rw [hcu]; exact hd
  · intro h
    refine ⟨w.map (fun c => [c]), ?_, ?_⟩
    · induction w with
      | nil => rfl
      | cons c w ih => rw [List.map_cons, List.flatten_cons, ← ih (fun c hc => h c (List.mem_cons_of_mem _ hc))]; rfl
    · intro u hu
      obtain ⟨c, hc, rfl⟩ := List.mem_map.mp hu
      exact ⟨c, rfl, h c hc⟩

theorem Re.lang_plus_chr {p : Char → Bool} {w : Str} : (Re.plus (.chr p) : Re γ).Lang w ↔ w ≠ [] ∧ ∀ c ∈ w, p c = true := by
  constructor
  · rintro ⟨u, v, rfl, ⟨c, rfl, hc⟩, l⟩
    rw [Re.lang_star_chr] at l
    refine ⟨by simp, ?_⟩
    intro d hd
    rcases List.mem_cons.mp hd with rfl | hd
    · exact hc
    · exact l d hd
  · rintro ⟨hne, h⟩
    cases w with
    | nil => exact absurd rfl hne
    | cons c w =>
      exact ⟨[c], w, rfl, ⟨c, rfl, h c (by simp)⟩, Re.lang_star_chr.mpr (fun d hd => h d (List.mem_cons_of_mem _ hd))⟩

end Go
