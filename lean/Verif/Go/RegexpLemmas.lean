import Verif.Go.Regexp
/-! Generic facts about the regexp matcher. -/
namespace Go
variable {γ : Type}

/-! ### remaining text is a suffix -/

theorem starRun_suffix {m : Str → List (Caps γ × Str)} (hm : ∀ s p, p ∈ m s → p.2 <:+ s) (n : Nat) (s : Str)
    (p : Caps γ × Str) (h : p ∈ starRun m n s) : p.2 <:+ s := by
  induction n generalizing s p with
  | zero => simp [starRun] at h; subst h; exact List.suffix_refl s
  | succ n ih =>
    rw [starRun, List.mem_append] at h
    rcases h with h | h
    · simp only [List.mem_flatMap, List.mem_filter, List.mem_map] at h
      obtain ⟨q, ⟨hq, _⟩, r, hr, rfl⟩ := h
      exact (ih _ _ hr).trans (hm _ _ hq)
    · simp at h; subst h; exact List.suffix_refl s

theorem Re.run_suffix (r : Re γ) (s : Str) (p : Caps γ × Str) (h : p ∈ r.run s) : p.2 <:+ s := by
  induction r generalizing s p with
  | eps => simp [Re.run] at h; subst h; exact List.suffix_refl s
  | chr q =>
    cases s with
    | nil => simp [Re.run] at h
    | cons c t =>
      simp only [Re.run] at h
      split at h
      · simp at h; subst h; exact List.suffix_cons c t
      · simp at h
  | seq a b iha ihb =>
    simp only [Re.run, List.mem_flatMap, List.mem_map] at h
    obtain ⟨q, hq, t, ht, rfl⟩ := h
    exact (ihb _ _ ht).trans (iha _ _ hq)
  | alt a b iha ihb =>
    simp only [Re.run, List.mem_append] at h
    exact h.elim (iha _ _) (ihb _ _)
  | opt a iha =>
    simp only [Re.run, List.mem_append] at h
    rcases h with h | h
    · exact iha _ _ h
    · simp at h; subst h; exact List.suffix_refl s
  | star a iha => exact starRun_suffix iha _ _ _ h
  | cap n a iha =>
    simp only [Re.run, List.mem_map] at h
    obtain ⟨q, hq, rfl⟩ := h
    exact iha _ q hq

/-! ### fuel -/

theorem flatMap_congr' {α β : Type} {l : List α} {f g : α → List β} (h : ∀ a ∈ l, f a = g a) :
    l.flatMap f = l.flatMap g := by
  induction l with
  | nil => rfl
  | cons a l ih =>
    rw [List.flatMap_cons, List.flatMap_cons, h a (by simp), ih (fun b hb => h b (by simp [hb]))]

theorem starRun_fuel' (m : Str → List (Caps γ × Str)) (n : Nat) :
    ∀ (k : Nat) (s : Str), s.length ≤ n → s.length ≤ k → starRun m n s = starRun m k s := by
  induction n with
  | zero =>
    intro k s h1 h2
    have : s = [] := List.length_eq_zero_iff.1 (by omega)
    subst this; cases k <;> simp [starRun]
  | succ n ih =>
    intro k s h1 h2
    cases k with
    | zero =>
      have : s = [] := List.length_eq_zero_iff.1 (by omega)
      subst this; simp [starRun]
    | succ k =>
      rw [starRun, starRun]
      congr 1
      apply flatMap_congr'
      intro p hp
      simp only [List.mem_filter, decide_eq_true_eq] at hp
      rw [ih k p.2 (by omega) (by omega)]

/-- one unfolding of `star` -/
theorem Re.run_star (a : Re γ) (s : Str) : (Re.star a).run s =
    ((a.run s).filter (fun p => p.2.length < s.length)).flatMap
      (fun p => ((Re.star a).run p.2).map (fun q => (p.1 ++ q.1, q.2))) ++ [([], s)] := by
  show starRun a.run s.length s = _
  rw [starRun_fuel' a.run s.length (s.length + 1) s (by omega) (by omega), starRun]
  congr 1
  apply flatMap_congr'
  intro p hp
  simp only [List.mem_filter, decide_eq_true_eq] at hp
  show List.map _ (starRun a.run s.length p.2) = List.map _ (starRun a.run p.2.length p.2)
  rw [starRun_fuel' a.run s.length p.2.length p.2 (by omega) (by omega)]

/-- induction principle for `star` results -/
theorem Re.star_ind (a : Re γ) (P : Str → Caps γ × Str → Prop) (h0 : ∀ s, P s ([], s))
    (h1 : ∀ s p q, p ∈ a.run s → p.2.length < s.length → q ∈ (Re.star a).run p.2 → P p.2 q → P s (p.1 ++ q.1, q.2)) :
    ∀ (s : Str) q, q ∈ (Re.star a).run s → P s q := by
  intro s
  generalize hn : s.length = n
  induction n using Nat.strongRecOn generalizing s with
  | ind n ih =>
    intro q hq
    rw [Re.run_star, List.mem_append] at hq
    rcases hq with hq | hq
    · simp only [List.mem_flatMap, List.mem_filter, decide_eq_true_eq, List.mem_map] at hq
      obtain ⟨p, ⟨hp, hl⟩, r, hr, rfl⟩ := hq
      exact h1 s p r hp hl hr (ih _ (by omega) p.2 rfl r hr)
    · simp at hq; subst hq; exact h0 s

/-! ### characters a regexp can consume -/

/-- a character accepted by some class occurring in the regexp -/
def Re.accepts : Re γ → Char → Bool
  | .eps, _ => false
  | .chr p, c => p c
  | .seq a b, c => a.accepts c || b.accepts c
  | .alt a b, c => a.accepts c || b.accepts c
  | .opt a, c => a.accepts c
  | .star a, c => a.accepts c
  | .cap _ a, c => a.accepts c

theorem Re.run_split (r : Re γ) (s : Str) (p : Caps γ × Str) (h : p ∈ r.run s) :
    ∃ w, s = w ++ p.2 ∧ ∀ c ∈ w, r.accepts c = true := by
  induction r generalizing s p with
  | eps => simp [Re.run] at h; subst h; exact ⟨[], rfl, by simp⟩
  | chr q =>
    cases s with
    | nil => simp [Re.run] at h
    | cons c t =>
      simp only [Re.run] at h
      split at h
      · rename_i hq; simp at h; subst h; exact ⟨[c], rfl, by simpa [Re.accepts] using hq⟩
      · simp at h
  | seq a b iha ihb =>
    simp only [Re.run, List.mem_flatMap, List.mem_map] at h
    obtain ⟨q, hq, t, ht, rfl⟩ := h
    obtain ⟨w1, e1, a1⟩ := iha _ _ hq
    obtain ⟨w2, e2, a2⟩ := ihb _ _ ht
    refine ⟨w1 ++ w2, by rw [e1, e2, List.append_assoc], ?_⟩
    intro c hc
    rw [List.mem_append] at hc
    simp only [Re.accepts, Bool.or_eq_true]
    exact hc.imp (a1 c) (a2 c)
  | alt a b iha ihb =>
    simp only [Re.run, List.mem_append] at h
    simp only [Re.accepts, Bool.or_eq_true]
    rcases h with h | h
    · obtain ⟨w, e, hw⟩ := iha _ _ h; exact ⟨w, e, fun c hc => Or.inl (hw c hc)⟩
    · obtain ⟨w, e, hw⟩ := ihb _ _ h; exact ⟨w, e, fun c hc => Or.inr (hw c hc)⟩
  | opt a iha =>
    simp only [Re.run, List.mem_append] at h
    rcases h with h | h
    · exact iha _ _ h
    · simp at h; subst h; exact ⟨[], rfl, by simp⟩
  | star a iha =>
    refine Re.star_ind a (fun s p => ∃ w, s = w ++ p.2 ∧ ∀ c ∈ w, a.accepts c = true) ?_ ?_ s p h
    · intro s; exact ⟨[], rfl, by simp⟩
    · rintro s p q hp - - ⟨w2, e2, a2⟩
      obtain ⟨w1, e1, a1⟩ := iha _ _ hp
      refine ⟨w1 ++ w2, by rw [e1, e2, List.append_assoc], ?_⟩
      intro c hc
      rw [List.mem_append] at hc
      exact hc.elim (a1 c) (a2 c)
  | cap n a iha =>
    simp only [Re.run, List.mem_map] at h
    obtain ⟨q, hq, rfl⟩ := h
    exact iha _ q hq

/-- the groups of a regexp: every capture made by `r` satisfies `P n w` if every sub-regexp `cap n a` only matches
texts with `P n` -/
def Re.capsSat (P : γ → Str → Prop) : Re γ → Prop
  | .eps => True
  | .chr _ => True
  | .seq a b => a.capsSat P ∧ b.capsSat P
  | .alt a b => a.capsSat P ∧ b.capsSat P
  | .opt a => a.capsSat P
  | .star a => a.capsSat P
  | .cap n a => a.capsSat P ∧ ∀ s p, p ∈ a.run s → P n (s.take (s.length - p.2.length))

theorem Re.run_caps (P : γ → Str → Prop) (r : Re γ) (hr : r.capsSat P) (s : Str) (p : Caps γ × Str)
    (h : p ∈ r.run s) : ∀ x ∈ p.1, P x.1 x.2 := by
  induction r generalizing s p with
  | eps => simp [Re.run] at h; subst h; simp
  | chr q =>
    cases s with
    | nil => simp [Re.run] at h
    | cons c t =>
      simp only [Re.run] at h
      split at h
      · simp at h; subst h; simp
      · simp at h
  | seq a b iha ihb =>
    simp only [Re.run, List.mem_flatMap, List.mem_map] at h
    obtain ⟨q, hq, t, ht, rfl⟩ := h
    intro x hx
    simp only [List.mem_append] at hx
    exact hx.elim (iha hr.1 _ _ hq x) (ihb hr.2 _ _ ht x)
  | alt a b iha ihb =>
    simp only [Re.run, List.mem_append] at h
    exact h.elim (iha hr.1 _ _) (ihb hr.2 _ _)
  | opt a iha =>
    simp only [Re.run, List.mem_append] at h
    rcases h with h | h
    · exact iha hr _ _ h
    · simp at h; subst h; simp
  | star a iha =>
    refine Re.star_ind a (fun s p => ∀ x ∈ p.1, P x.1 x.2) (by simp) ?_ s p h
    intro s p q hp _ _ ih x hx
    simp only [List.mem_append] at hx
    exact hx.elim (iha hr s p hp x) (ih x)
  | cap n a iha =>
    simp only [Re.run, List.mem_map] at h
    obtain ⟨q, hq, rfl⟩ := h
    intro x hx
    simp only [List.mem_cons] at hx
    rcases hx with rfl | hx
    · exact hr.2 s q hq
    · exact iha hr.1 s q hq x hx

theorem take_split {s w t : Str} (h : s = w ++ t) : s.take (s.length - t.length) = w := by
  subst h; simp

/-! ### text that cannot be consumed may follow -/

theorem Re.run_append (r : Re γ) (w : Str) (s : Str) (hw : ∀ c ∈ w, r.accepts c = false) :
    r.run (s ++ w) = (r.run s).map (fun p => (p.1, p.2 ++ w)) := by
  cases w with
  | nil => simp
  | cons d w' =>
  induction r generalizing s with
  | eps => simp [Re.run]
  | chr q =>
    cases s with
    | nil =>
      have : q d = false := hw d (by simp)
      simp [Re.run, this]
    | cons c t => simp only [Re.run, List.cons_append]; split <;> simp
  | seq a b iha ihb =>
    have ha : ∀ c ∈ d :: w', a.accepts c = false := fun c hc => by
      have := hw c hc; simp [Re.accepts] at this; exact this.1
    have hb : ∀ c ∈ d :: w', b.accepts c = false := fun c hc => by
      have := hw c hc; simp [Re.accepts] at this; exact this.2
    simp only [Re.run]
    rw [iha _ ha, List.flatMap_map, List.map_flatMap]
    apply flatMap_congr'
    intro p _
    simp only [ihb _ hb, List.map_map]
    rfl
  | alt a b iha ihb =>
    have ha : ∀ c ∈ d :: w', a.accepts c = false := fun c hc => by
      have := hw c hc; simp [Re.accepts] at this; exact this.1
    have hb : ∀ c ∈ d :: w', b.accepts c = false := fun c hc => by
      have := hw c hc; simp [Re.accepts] at this; exact this.2
    simp only [Re.run]
    rw [iha _ ha, ihb _ hb, List.map_append]
  | opt a iha =>
    simp only [Re.run]
    rw [iha _ hw, List.map_append]; simp
  | star a iha =>
    generalize hn : s.length = n
    induction n using Nat.strongRecOn generalizing s with
    | ind n ih =>
      rw [Re.run_star, Re.run_star, iha _ hw, List.filter_map, List.flatMap_map, List.map_append, List.map_flatMap]
      congr 1
      have : ((fun p : Caps γ × Str => decide (p.2.length < (s ++ d :: w').length)) ∘
          fun p : Caps γ × Str => (p.1, p.2 ++ d :: w')) = fun p => decide (p.2.length < s.length) := by
        funext p; simp
      rw [this]
      apply flatMap_congr'
      intro p hp
      simp only [List.mem_filter, decide_eq_true_eq] at hp
      simp only [ih p.2.length (by omega) p.2 rfl, List.map_map]
      rfl
  | cap n a iha =>
    simp only [Re.run]
    rw [iha _ hw, List.map_map, List.map_map]
    apply List.map_congr_left
    intro p hp
    obtain ⟨u, e, _⟩ := a.run_split _ _ hp
    simp only [Function.comp]
    rw [take_split e, take_split (s := s ++ d :: w') (w := u) (t := p.2 ++ d :: w') (by rw [e]; simp)]

/-! ### mapping the text through a function the classes do not distinguish -/

/-- every class of the regexp gives the same answer for `c` and `f c` -/
def Re.stable (f : Char → Char) : Re γ → Prop
  | .eps => True
  | .chr p => ∀ c, p (f c) = p c
  | .seq a b => a.stable f ∧ b.stable f
  | .alt a b => a.stable f ∧ b.stable f
  | .opt a => a.stable f
  | .star a => a.stable f
  | .cap _ a => a.stable f

def mapCaps (f : Char → Char) (p : Caps γ × Str) : Caps γ × Str :=
  (p.1.map (fun x => (x.1, x.2.map f)), p.2.map f)

theorem Re.run_map (f : Char → Char) (r : Re γ) (hr : r.stable f) (s : Str) :
    r.run (s.map f) = (r.run s).map (mapCaps f) := by
  induction r generalizing s with
  | eps => simp [Re.run, mapCaps]
  | chr q =>
    cases s with
    | nil => simp [Re.run]
    | cons c t =>
      have := hr c
      simp only [Re.run, List.map_cons, this]
      split <;> simp [mapCaps]
  | seq a b iha ihb =>
    simp only [Re.run]
    rw [iha hr.1, List.flatMap_map, List.map_flatMap]
    apply flatMap_congr'
    intro p _
    simp only [mapCaps, ihb hr.2, List.map_map]
    apply List.map_congr_left
    intro q _; simp [mapCaps]
  | alt a b iha ihb =>
    simp only [Re.run]
    rw [iha hr.1, ihb hr.2, List.map_append]
  | opt a iha =>
    simp only [Re.run]
    rw [iha hr, List.map_append]; simp [mapCaps]
  | star a iha =>
    generalize hn : s.length = n
    induction n using Nat.strongRecOn generalizing s with
    | ind n ih =>
      rw [Re.run_star, Re.run_star, iha hr, List.filter_map, List.flatMap_map, List.map_append, List.map_flatMap]
      congr 1
      have : ((fun p : Caps γ × Str => decide (p.2.length < (s.map f).length)) ∘ mapCaps f) =
          fun p => decide (p.2.length < s.length) := by
        funext p; simp [mapCaps]
      rw [this]
      apply flatMap_congr'
      intro p hp
      simp only [List.mem_filter, decide_eq_true_eq] at hp
      simp only [mapCaps, ih p.2.length (by omega) p.2 rfl, List.map_map]
      apply List.map_congr_left
      intro q _; simp [mapCaps]
  | cap n a iha =>
    simp only [Re.run]
    rw [iha hr, List.map_map, List.map_map]
    apply List.map_congr_left
    intro p hp
    simp [mapCaps, List.map_take]

/-! ### first success -/

/-- the first success of `r` for which the continuation `k` succeeds -/
def Re.first {β : Type} (r : Re γ) (s : Str) (k : Caps γ → Str → Option β) : Option β :=
  (r.run s).findSome? (fun p => k p.1 p.2)

theorem Re.matchFull_first (r : Re γ) (s : Str) :
    r.matchFull s = r.first s (fun c t => if t.isEmpty then some c else none) := by
  unfold Re.matchFull Re.first
  induction r.run s with
  | nil => rfl
  | cons p l ih =>
    rw [List.find?_cons, List.findSome?_cons]
    by_cases h : p.2.isEmpty <;> simp [h]
    simpa using ih

theorem findSome?_flatMap' {α β δ : Type} (l : List α) (g : α → List β) (k : β → Option δ) :
    (l.flatMap g).findSome? k = l.findSome? (fun a => (g a).findSome? k) := by
  induction l with
  | nil => rfl
  | cons a l ih =>
    rw [List.flatMap_cons, List.findSome?_append, ih, List.findSome?_cons]
    cases (g a).findSome? k <;> rfl

variable {β : Type} (k : Caps γ → Str → Option β)

theorem Re.first_eps (s : Str) : (Re.eps : Re γ).first s k = k [] s := by
  simp [Re.first, Re.run, List.findSome?_cons]; cases k [] s <;> rfl

theorem Re.first_chr_nil (p : Char → Bool) : (Re.chr p : Re γ).first [] k = none := rfl

theorem Re.first_chr_cons (p : Char → Bool) (c : Char) (t : Str) :
    (Re.chr p : Re γ).first (c :: t) k = if p c then k [] t else none := by
  simp only [Re.first, Re.run]; split
  · simp [List.findSome?_cons]; cases k [] t <;> rfl
  · rfl

theorem Re.first_seq (a b : Re γ) (s : Str) :
    (Re.seq a b).first s k = a.first s (fun c t => b.first t (fun c' t' => k (c ++ c') t')) := by
  unfold Re.first
  rw [Re.run, findSome?_flatMap']
  simp [List.findSome?_map, Function.comp_def]

theorem Re.first_alt (a b : Re γ) (s : Str) : (Re.alt a b).first s k = (a.first s k).or (b.first s k) := by
  unfold Re.first
  rw [Re.run, List.findSome?_append]

theorem Re.first_opt (a : Re γ) (s : Str) : (Re.opt a).first s k = (a.first s k).or (k [] s) := by
  unfold Re.first
  rw [Re.run, List.findSome?_append]
  congr 1
  simp [List.findSome?_cons]; cases k [] s <;> rfl

theorem Re.first_cap (n : γ) (a : Re γ) (s : Str) : (Re.cap n a).first s k =
    a.first s (fun c t => k ((n, s.take (s.length - t.length)) :: c) t) := by
  unfold Re.first
  rw [Re.run, List.findSome?_map]; rfl

theorem findSome?_filter' {α δ : Type} (l : List α) (f : α → Bool) (k : α → Option δ) :
    (l.filter f).findSome? k = l.findSome? (fun a => if f a then k a else none) := by
  induction l with
  | nil => rfl
  | cons a l ih =>
    rw [List.filter_cons, List.findSome?_cons]
    by_cases h : f a = true
    · rw [if_pos h, List.findSome?_cons, ih, if_pos h]
    · rw [if_neg h, ih, if_neg h]

theorem Re.first_star (a : Re γ) (s : Str) : (Re.star a).first s k =
    (a.first s (fun c t => if t.length < s.length then (Re.star a).first t (fun c' t' => k (c ++ c') t') else none)).or
      (k [] s) := by
  unfold Re.first
  rw [Re.run_star, List.findSome?_append, findSome?_flatMap', findSome?_filter']
  congr 1
  · simp [List.findSome?_map, Function.comp_def]
  · simp [List.findSome?_cons]; cases k [] s <;> rfl

/-- texts left over by `[p]*`, longest match first -/
def spans (p : Char → Bool) : Str → List Str
  | [] => [[]]
  | c :: t => if p c then spans p t ++ [c :: t] else [c :: t]

theorem Re.run_star_chr (p : Char → Bool) (s : Str) :
    (Re.star (Re.chr p) : Re γ).run s = (spans p s).map (fun t => ([], t)) := by
  induction s with
  | nil => rw [Re.run_star]; simp [Re.run, spans]
  | cons c t ih =>
    rw [Re.run_star]
    by_cases h : p c = true
    · have e : (Re.chr p : Re γ).run (c :: t) = [([], t)] := by simp [Re.run, h]
      rw [e]
      simp [spans, h, ih]
    · simp [Re.run, spans, h]

theorem Re.first_star_chr (p : Char → Bool) (s : Str) :
    (Re.star (Re.chr p) : Re γ).first s k = (spans p s).findSome? (k []) := by
  unfold Re.first
  rw [Re.run_star_chr, List.findSome?_map]; rfl

/-- the text does not begin with a character satisfying `p` -/
def NotStart (p : Char → Bool) (s : Str) : Prop := ∀ c t, s = c :: t → p c = false

theorem spans_stop {p : Char → Bool} {s : Str} (h : NotStart p s) : spans p s = [s] := by
  cases s with
  | nil => rfl
  | cons c t => simp [spans, h c t rfl]

theorem spans_run {p : Char → Bool} {w s : Str} (hw : ∀ c ∈ w, p c = true) (h : NotStart p s) :
    ∃ l, spans p (w ++ s) = s :: l ∧ ∀ u ∈ l, ∃ c v, u = c :: v ∧ p c = true := by
  induction w with
  | nil => exact ⟨[], by simpa using spans_stop h, by simp⟩
  | cons c w ih =>
    obtain ⟨l, e, hl⟩ := ih (fun d hd => hw d (by simp [hd]))
    refine ⟨l ++ [c :: (w ++ s)], ?_, ?_⟩
    · simp [spans, hw c (by simp), e]
    · intro u hu
      rw [List.mem_append] at hu
      rcases hu with hu | hu
      · exact hl u hu
      · simp at hu; exact ⟨c, _, hu, hw c (by simp)⟩

/-- `[p]+` on a non-empty run of `p` characters, first choice -/
theorem Re.first_plus_run {p : Char → Bool} {w s : Str} {x : β} (hne : w ≠ []) (hw : ∀ c ∈ w, p c = true)
    (h : NotStart p s) (hk : k [] s = some x) : (Re.plus (Re.chr p) : Re γ).first (w ++ s) k = some x := by
  obtain ⟨c, w, rfl⟩ := List.exists_cons_of_ne_nil hne
  obtain ⟨l, e, _⟩ := spans_run (fun d hd => hw d (by simp [hd])) h (w := w)
  unfold Re.plus
  rw [Re.first_seq, List.cons_append, Re.first_chr_cons, if_pos (hw c (by simp)), Re.first_star_chr, e,
    List.findSome?_cons]
  simp [hk]

/-- `[p]+` fails when nothing starts -/
theorem Re.first_plus_none {p : Char → Bool} {s : Str} (h : NotStart p s) :
    (Re.plus (Re.chr p) : Re γ).first s k = none := by
  unfold Re.plus
  rw [Re.first_seq]
  cases s with
  | nil => rfl
  | cons c t => rw [Re.first_chr_cons, if_neg (by simp [h c t rfl])]

/-- `[p]+` on a run of `p` characters fails if the continuation fails after every non-empty prefix -/
theorem Re.first_plus_fail {p : Char → Bool} {w s : Str} (hw : ∀ c ∈ w, p c = true) (h : NotStart p s)
    (hk : k [] s = none) (hk' : ∀ c v, p c = true → k [] (c :: v) = none) :
    (Re.plus (Re.chr p) : Re γ).first (w ++ s) k = none := by
  cases w with
  | nil => exact Re.first_plus_none k h
  | cons c w =>
    obtain ⟨l, e, hl⟩ := spans_run (fun d hd => hw d (by simp [hd])) h (w := w)
    unfold Re.plus
    rw [Re.first_seq, List.cons_append, Re.first_chr_cons, if_pos (hw c (by simp)), Re.first_star_chr, e,
      List.findSome?_cons]
    simp only [List.append_nil, hk]
    rw [List.findSome?_eq_none_iff]
    intro u hu
    obtain ⟨d, v, rfl, hd⟩ := hl u hu
    exact hk' d v hd

theorem first_opt_some {a : Re γ} {s : Str} {x : β} (h : a.first s k = some x) : (Re.opt a).first s k = some x := by
  rw [Re.first_opt, h]; rfl

theorem first_opt_skip {a : Re γ} {s : Str} (h : a.first s k = none) : (Re.opt a).first s k = k [] s := by
  rw [Re.first_opt, h]; rfl

end Go
