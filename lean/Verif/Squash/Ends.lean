import Verif.Squash.PropsFollow
/-! Lemmas for C68: when following symlinks comes to an end without a file. -/
namespace Squash
open Go Spec

/-- path resolution comes to the place before the last element -/
theorem leads_init {V : Path → Option Node} {f : Path} {ds : List Str} {q : Path} (h : Leads V f ds q) :
    ∀ cs c, ds = cs ++ [c] → c ≠ "..".toList → ∃ d, Leads V f cs d := by
  induction h with
  | here => intro cs c h; exact absurd h.symm (by simp)
  | up _ ih =>
    intro cs c h hc
    cases cs with
    | nil => exact absurd (List.cons.inj h).1.symm hc
    | cons x cs =>
      obtain ⟨rfl, h2⟩ := List.cons.inj h
      obtain ⟨d, hd⟩ := ih cs c h2 hc
      exact ⟨d, .up hd⟩
  | step h1 h2 h3 h4 _ ih =>
    intro cs c h hc
    cases cs with
    | nil => exact ⟨_, .here⟩
    | cons x cs =>
      obtain ⟨rfl, h5⟩ := List.cons.inj h
      obtain ⟨d, hd⟩ := ih cs c h5 hc
      exact ⟨d, .step h1 h2 h3 (fun _ => h4 (by rw [h5]; simp)) hd⟩
  | link h1 h2 h3 h4 _ ih =>
    intro cs c h hc
    cases cs with
    | nil => exact ⟨_, .here⟩
    | cons x cs =>
      obtain ⟨rfl, h5⟩ := List.cons.inj h
      obtain ⟨d, hd⟩ := ih (comps _ ++ cs) c (by rw [h5]; exact (List.append_assoc _ _ _).symm) hc
      exact ⟨d, .link h1 h2 h3 h4 hd⟩

/-- the link `f` names the existing `g`, with no link at the end followed -/
def Nm (S : FS) (f g : Path) : Prop := ∃ b ns c d k, Lk S f b (ns ++ [c]) ∧ R S k b ns d ∧ S.has (d ++ [c]) ∧ g = d ++ [c]

/-- the link `f` names a link that names a link and so on, without end -/
def Circ (S : FS) (f : Path) : Prop := ∃ P : Path → Prop, P f ∧ ∀ x, P x → ∃ y, Nm S x y ∧ P y

/-- from the node `f` along `cs` one comes to an end, in `k` steps, because a name does not exist or links go in a circle -/
inductive F (S : FS) : Nat → Path → List Str → Prop where
  | missing {f : Path} {c : Str} {cs : List Str} : S.link f = none → ¬ S.has (f ++ [c]) → F S 0 f (c :: cs)
  | circle {f : Path} {cs : List Str} : Circ S f → F S 0 f cs
  | down {k : Nat} {f : Path} {c : Str} {cs : List Str} : S.link f = none → S.has (f ++ [c]) → F S k (f ++ [c]) cs → F S (k + 1) f (c :: cs)
  | link {k : Nat} {f b : Path} {ns cs : List Str} : Lk S f b ns → F S k b (ns ++ cs) → F S (k + 1) f cs

theorem Nm.isLink {S : FS} {f g : Path} (h : Nm S f g) : S.link f ≠ none := by
  obtain ⟨_, _, _, _, _, h, _⟩ := h
  exact h.isLink

theorem Circ.isLink {S : FS} {f : Path} (h : Circ S f) : S.link f ≠ none := by
  obtain ⟨P, h1, h2⟩ := h
  obtain ⟨y, h3, _⟩ := h2 f h1
  exact h3.isLink

theorem Nm.unique {S : FS} {f g g' : Path} (h : Nm S f g) (h' : Nm S f g') : g = g' := by
  obtain ⟨b, ns, c, d, k, h1, h2, h3, rfl⟩ := h
  obtain ⟨b', ns', c', d', k', h1', h2', h3', rfl⟩ := h'
  obtain ⟨rfl, e⟩ := h1.unique h1'
  obtain ⟨rfl, e2⟩ := List.append_inj' e rfl
  rw [(h2.unique h2').2, List.singleton_inj.mp e2]

theorem F.split {S : FS} {k : Nat} {f : Path} {xs ys : List Str} (h : F S k f (xs ++ ys)) :
    (∃ k', k' ≤ k ∧ F S k' f xs) ∨ ∃ m k1 k2, R S k1 f xs m ∧ F S k2 m ys ∧ k2 ≤ k := by
  generalize e : xs ++ ys = zs at h
  induction h generalizing xs with
  | @missing f c cs hl hh =>
    cases xs with
    | nil => exact .inr ⟨f, 0, 0, .done hl, by rw [List.nil_append] at e; rw [e]; exact .missing hl hh, Nat.le_refl _⟩
    | cons x xs =>
      obtain ⟨rfl, _⟩ := List.cons.inj e
      exact .inl ⟨0, Nat.le_refl _, .missing hl hh⟩
  | @circle f cs hc => exact .inl ⟨0, Nat.le_refl _, .circle hc⟩
  | @down k f c cs hl hh hf ih =>
    cases xs with
    | nil => exact .inr ⟨f, 0, k + 1, .done hl, by rw [List.nil_append] at e; rw [e]; exact .down hl hh hf, Nat.le_refl _⟩
    | cons x xs =>
      obtain ⟨rfl, e'⟩ := List.cons.inj e
      rcases ih e' with ⟨k', h1, h2⟩ | ⟨m, k1, k2, h1, h2, h3⟩
      · exact .inl ⟨k' + 1, by omega, .down hl hh h2⟩
      · exact .inr ⟨m, k1 + 1, k2, .down hl hh h1, h2, by omega⟩
  | @link k f b ns cs hk hf ih =>
    subst e
    rcases ih (xs := ns ++ xs) (by simp) with ⟨k', h1, h2⟩ | ⟨m, k1, k2, h1, h2, h3⟩
    · exact .inl ⟨k' + 1, by omega, .link hk h2⟩
    · exact .inr ⟨m, k1 + 1, k2, .link hk h1, h2, by omega⟩

theorem F.cons {S : FS} {k : Nat} {f : Path} {c : Str} {cs : List Str} (h : F S k f (c :: cs)) :
    (∃ k', k' ≤ k ∧ F S k' f []) ∨ (∃ f' k1, R S k1 f [] f' ∧ ¬ S.has (f' ++ [c])) ∨
    ∃ f' k1 k2, R S k1 f [] f' ∧ S.has (f' ++ [c]) ∧ F S k2 (f' ++ [c]) cs ∧ k2 < k := by
  rcases F.split (xs := []) h with h | ⟨m, k1, k2, h1, h2, h3⟩
  · exact .inl h
  · cases h2 with
    | missing hl hh => exact .inr (.inl ⟨m, k1, h1, hh⟩)
    | circle hc => exact absurd h1.end hc.isLink
    | down hl hh hf => exact .inr (.inr ⟨m, k1, _, h1, hh, hf, by omega⟩)
    | link hk _ => exact absurd h1.end hk.isLink

theorem F.append {S : FS} {k : Nat} {f : Path} {xs : List Str} (h : F S k f xs) (ys : List Str) : F S k f (xs ++ ys) := by
  induction h with
  | missing hl hh => exact .missing hl hh
  | circle hc => exact .circle hc
  | down hl hh _ ih => exact .down hl hh ih
  | link hk _ ih => exact .link hk (by rw [← List.append_assoc]; exact ih)

theorem R.fails {S : FS} {k1 k2 : Nat} {f : Path} {xs ys : List Str} {m : Path} (h : R S k1 f xs m) (h' : F S k2 m ys) :
    F S (k1 + k2) f (xs ++ ys) := by
  induction h with
  | done _ => simpa using h'
  | @down k f c cs p hl hh hr ih =>
    have := F.down hl hh (ih h')
    rw [List.cons_append]
    rwa [show k + 1 + k2 = k + k2 + 1 by omega]
  | @link k f b ns cs p hk hr ih =>
    have h := ih h'
    rw [List.append_assoc] at h
    have := F.link hk h
    rwa [show k + 1 + k2 = k + k2 + 1 by omega]

/-! ### the code reports an error -/

section
variable {b0 : Bool} {S : FS}

/-- one name that exists -/
theorem get_key (hi : Inv b0 S) (hs : StraightLinks S) {k1 : Nat} {f f' : Path} {c : Str} (hf : S.has f) (hc : Plain c) (hr : R S k1 f [] f')
    (hh : S.has (f' ++ [c])) : ∃ n1, ∀ n, n1 ≤ n → ∀ fl, G (n + 1) S f c fl =
      if fl then resolve (fun S d l => fsGetWith (G n) S d l false) n S [] (f' ++ [c]) else some (.ok (S, f' ++ [c])) := by
  obtain ⟨n1, h1⟩ := follow_bwd (cr := false) hi hs k1 f f' hf hr
  refine ⟨n1, fun n hn fl => ?_⟩
  show get (n + 1) S f c false fl = _
  rw [get]
  simp only
  rw [if_neg (show ¬ c = "..".toList from hc.2.2.1), if_neg (show ¬ c = ".".toList from hc.2.1), (h1 n hn).1, bind_some_ok]
  simp only
  rw [makeDir_dir (has_dir hi hh).2.1, bind_some_ok, child_old hh, bind_some_ok]

/-- one name that does not -/
theorem get_missing (hi : Inv b0 S) (hs : StraightLinks S) {k1 : Nat} {f f' : Path} {c : Str} (hf : S.has f) (hc : Plain c) (hr : R S k1 f [] f')
    (hh : ¬ S.has (f' ++ [c])) : ∃ n1, ∀ n, n1 ≤ n → ∀ fl, G n S f c fl = some (.error ()) := by
  obtain ⟨n1, h1⟩ := follow_bwd (cr := false) hi hs k1 f f' hf hr
  refine ⟨n1 + 1, fun n hn fl => ?_⟩
  obtain ⟨m, rfl⟩ : ∃ m, n = m + 1 := ⟨n - 1, by omega⟩
  show get (m + 1) S f c false fl = _
  rw [get]
  simp only
  rw [if_neg (show ¬ c = "..".toList from hc.2.2.1), if_neg (show ¬ c = ".".toList from hc.2.1), (h1 m (by omega)).1, bind_some_ok]
  simp only
  have hch : child false S f' c = some (.error ()) := by
    unfold child
    cases e : S.get? (f' ++ [c]) with
    | none => rfl
    | some nd => exact absurd (has_of e) hh
  rcases makeDir_fine (g := fun S f => get m S f opqName true true) (S := S) (f := f') with e | e
  · rw [e]; rfl
  · rw [e, bind_some_ok, hch]; rfl

/-- all names but the last, then the last -/
theorem walk_to (hi : Inv b0 S) (hs : StraightLinks S) {c : Str} (hc : Plain c) : ∀ (ns : List Str) (f d : Path) (k : Nat), (∀ c ∈ ns, Plain c) → S.has f →
    R S k f ns d → S.has (d ++ [c]) → ∃ n1, ∀ n, n1 ≤ n → ∀ fl, walk (G (n + 1)) S f (ns ++ [c]) fl =
      if fl then resolve (fun S d l => fsGetWith (G n) S d l false) n S [] (d ++ [c]) else some (.ok (S, d ++ [c])) := by
  intro ns
  induction ns with
  | nil => intro f d k _ hf hr hh; exact get_key hi hs hf hc hr hh
  | cons x ns ih =>
    intro f d k hp hf hr hh
    obtain ⟨f', k1, k2, h1, h2, h3, rfl⟩ := hr.cons
    obtain ⟨n1, g1⟩ := get_key hi hs hf (hp x (by simp)) h1 h2
    obtain ⟨n2, g2⟩ := ih _ _ _ (fun x hx => hp x (by simp [hx])) h2 h3 hh
    refine ⟨n1 + n2, fun n hn fl => ?_⟩
    rw [List.cons_append, walk]
    · rw [g1 n (by omega), if_neg (by simp), bind_some_ok]
      exact g2 n (by omega) fl
    · intro e; exact absurd e (by simp)

/-- the target of a link that names something -/
theorem target_to (hi : Inv b0 S) (hs : StraightLinks S) {f g : Path} {l : Str} (h : Nm S f g) (hl : S.link f = some l) : ∃ n1, ∀ n, n1 ≤ n → ∀ fl,
    fsGetWith (G (n + 1)) S f.dropLast l fl =
      if fl then resolve (fun S d l => fsGetWith (G n) S d l false) n S [] g else some (.ok (S, g)) := by
  obtain ⟨b, ns, c, d, k, h1, h2, h3, rfl⟩ := h
  obtain ⟨b1, _, _⟩ := h1.base hi (hs f l hl).1
  obtain ⟨n1, g1⟩ := walk_to hi hs (h1.plain c (by simp)) ns b d k (fun x hx => h1.plain x (by simp [hx])) b1 h2 h3
  refine ⟨n1, fun n hn fl => ?_⟩
  rw [(fsGet_target h1 hl).1 (by simp)]
  exact g1 n hn fl

/-- fuel for each of the links -/
theorem target_all (hi : Inv b0 S) (hs : StraightLinks S) : ∀ (ps : List Path), ∃ n1, ∀ f ∈ ps, ∀ g l, Nm S f g → S.link f = some l → ∀ n, n1 ≤ n →
    fsGetWith (G n) S f.dropLast l false = some (.ok (S, g)) := by
  intro ps
  induction ps with
  | nil => exact ⟨0, by simp⟩
  | cons p ps ih =>
    obtain ⟨n1, h1⟩ := ih
    by_cases hp : ∃ g l, Nm S p g ∧ S.link p = some l
    · obtain ⟨g, l, h2, h3⟩ := hp
      obtain ⟨n2, h4⟩ := target_to hi hs h2 h3
      refine ⟨n1 + n2 + 1, ?_⟩
      intro f hf g' l' hg hl n hn
      rcases List.mem_cons.mp hf with rfl | hf
      · rw [← h2.unique hg]
        rw [h3] at hl
        injection hl with hl
        rw [← hl]
        obtain ⟨m, rfl⟩ : ∃ m, n = m + 1 := ⟨n - 1, by omega⟩
        rw [h4 m (by omega), if_neg (by simp)]
      · exact h1 f hf g' l' hg hl n (by omega)
    · refine ⟨n1, ?_⟩
      intro f hf g' l' hg hl n hn
      rcases List.mem_cons.mp hf with rfl | hf
      · exact absurd ⟨g', l', hg, hl⟩ hp
      · exact h1 f hf g' l' hg hl n hn

/-- a circle is noticed -/
theorem resolve_circle (hi : Inv b0 S) (hs : StraightLinks S) : ∃ n0, ∀ n, n0 ≤ n → ∀ m, n0 ≤ m → ∀ st f, Circ S f →
    resolve (fun S d l => fsGetWith (G n) S d l false) m S st f = some (.error ()) := by
  obtain ⟨n1, h1⟩ := target_all hi hs (S.map (·.1))
  refine ⟨n1 + S.length + 1, fun n hn => ?_⟩
  have key : ∀ m st f, ((S.map (·.1)).filter (fun q => decide (q ∉ st))).length < m → Circ S f →
      resolve (fun S d l => fsGetWith (G n) S d l false) m S st f = some (.error ()) := by
    intro m
    induction m with
    | zero => intro st f h; omega
    | succ m ih =>
      intro st f hm hc
      obtain ⟨P, hP, hst⟩ := hc
      obtain ⟨y, hy, hPy⟩ := hst f hP
      obtain ⟨l, hl⟩ : ∃ l, S.link f = some l := by
        cases e : S.link f with
        | none => exact absurd e hy.isLink
        | some l => exact ⟨l, rfl⟩
      rw [resolve, hl]
      simp only
      by_cases hin : f ∈ st
      · rw [if_pos hin]
      · rw [if_neg hin, h1 f (has_of_link hl) y l hy hl n (by omega), bind_some_ok]
        refine ih (f :: st) y ?_ ⟨P, hPy, hst⟩
        have hlt : ((S.map (·.1)).filter (fun q => decide (q ∉ f :: st))).length < ((S.map (·.1)).filter (fun q => decide (q ∉ st))).length := by
          have e : (S.map (·.1)).filter (fun q => decide (q ∉ f :: st)) = ((S.map (·.1)).filter (fun q => decide (q ∉ st))).filter (fun q => decide (q ≠ f)) := by
            rw [List.filter_filter]
            congr 1
            funext q
            by_cases h1 : q = f <;> by_cases h2 : q ∈ st <;> simp [h1, h2]
          rw [e]
          apply List.length_filter_lt_length_iff_exists.mpr
          exact ⟨f, by simp only [List.mem_filter]; exact ⟨has_of_link hl, by simpa using hin⟩, by simp⟩
        omega
  intro m hm st f hc
  refine key m st f ?_ hc
  have := List.length_filter_le (fun q => decide (q ∉ st)) (S.map (·.1))
  rw [List.length_map] at this
  omega

/-- a node that leads nowhere: it cannot be entered, and following it is an error -/
def FailOk (S : FS) (k : Nat) : Prop := ∀ f, S.has f → F S k f [] → ∃ n0, ∀ n, n0 ≤ n →
  enter (fun S d l => fsGetWith (G n) S d l true) S f = some (.error ()) ∧
  ∀ m, n0 ≤ m → ∀ st, resolve (fun S d l => fsGetWith (G n) S d l false) m S st f = some (.error ())

/-- what a walk does that leads nowhere -/
def WalkFails (S : FS) (k : Nat) (f : Path) (ns : List Str) : Prop := ∃ n0,
  (∀ n, n0 ≤ n → ∀ fl, walk (G n) S f ns fl = some (.error ())) ∨
  ∃ r k2, S.has r ∧ k2 ≤ k ∧ F S k2 r [] ∧ ∀ n, n0 ≤ n → walk (G n) S f ns true = some (.error ()) ∧ walk (G n) S f ns false = some (.ok (S, r))

theorem walk_fails (hi : Inv b0 S) (hs : StraightLinks S) : ∀ (ns : List Str) (k : Nat), (∀ k' ≤ k, FailOk S k') → ∀ f, ns ≠ [] → (∀ c ∈ ns, Plain c) →
    S.has f → F S k f ns → WalkFails S k f ns := by
  intro ns
  induction ns with
  | nil => intro k _ f h; exact absurd rfl h
  | cons c cs ih =>
    intro k hk f _ hp hf hF
    -- an error at the first name
    have herr : (∃ n1, ∀ n, n1 ≤ n → ∀ fl, G n S f c fl = some (.error ())) → WalkFails S k f (c :: cs) := by
      rintro ⟨n1, h1⟩
      refine ⟨n1, .inl fun n hn fl => ?_⟩
      cases cs with
      | nil => exact h1 n hn fl
      | cons c2 cs =>
        rw [walk]
        · rw [h1 n hn false]; rfl
        · simp
    have hpc := hp c (by simp)
    rcases hF.cons with ⟨k', h1, h2⟩ | ⟨f', k1, h1, h2⟩ | ⟨f', k1, k2, h1, h2, h3, h4⟩
    · apply herr
      obtain ⟨n0, h3⟩ := hk k' h1 f hf h2
      refine ⟨n0 + 1, fun n hn fl => ?_⟩
      obtain ⟨m, rfl⟩ : ∃ m, n = m + 1 := ⟨n - 1, by omega⟩
      show get (m + 1) S f c false fl = _
      rw [get]
      simp only
      rw [if_neg (show ¬ c = "..".toList from hpc.2.2.1), if_neg (show ¬ c = ".".toList from hpc.2.1), (h3 m (by omega)).1]
      rfl
    · exact herr (get_missing hi hs hf hpc h1 h2)
    · obtain ⟨n1, g1⟩ := get_key hi hs hf hpc h1 h2
      cases cs with
      | nil =>
        obtain ⟨n0, h5⟩ := hk k2 (by omega) _ h2 h3
        refine ⟨n0 + n1 + 1, .inr ⟨f' ++ [c], k2, h2, by omega, h3, fun n hn => ?_⟩⟩
        obtain ⟨m, rfl⟩ : ∃ m, n = m + 1 := ⟨n - 1, by omega⟩
        constructor
        · show G (m + 1) S f c true = _
          rw [g1 m (by omega), if_pos rfl]
          exact (h5 m (by omega)).2 m (by omega) []
        · show G (m + 1) S f c false = _
          rw [g1 m (by omega), if_neg (by simp)]
      | cons c2 cs =>
        have hstep : ∀ n, n1 + 1 ≤ n → ∀ fl, walk (G n) S f (c :: c2 :: cs) fl = walk (G n) S (f' ++ [c]) (c2 :: cs) fl := by
          intro n hn fl
          obtain ⟨m, rfl⟩ : ∃ m, n = m + 1 := ⟨n - 1, by omega⟩
          rw [walk]
          · rw [g1 m (by omega), if_neg (by simp), bind_some_ok]
          · simp
        obtain ⟨n0, hw⟩ := ih k2 (fun k' h => hk k' (by omega)) (f' ++ [c]) (by simp) (fun x hx => hp x (by simp [hx])) h2 h3
        refine ⟨n0 + n1 + 1, ?_⟩
        rcases hw with hw | ⟨r, k3, w1, w2, w3, w4⟩
        · exact .inl fun n hn fl => by rw [hstep n (by omega)]; exact hw n (by omega) fl
        · refine .inr ⟨r, k3, w1, by omega, w3, fun n hn => ?_⟩
          rw [hstep n (by omega), hstep n (by omega)]
          exact w4 n (by omega)

theorem follow_fails (hi : Inv b0 S) (hs : StraightLinks S) : ∀ k, FailOk S k := by
  intro k
  induction k using Nat.strongRecOn with
  | ind k ih =>
    intro f hf hF
    cases hF with
    | circle hc =>
      obtain ⟨n0, h0⟩ := resolve_circle hi hs
      have hc' := hc
      obtain ⟨P, hP, hst⟩ := hc
      obtain ⟨y, hy, hPy⟩ := hst f hP
      obtain ⟨l, hl⟩ : ∃ l, S.link f = some l := by
        cases e : S.link f with
        | none => exact absurd e hy.isLink
        | some l => exact ⟨l, rfl⟩
      obtain ⟨n1, h1⟩ := target_to hi hs hy hl
      refine ⟨n0 + n1 + 1, fun n hn => ⟨?_, fun m hm st => h0 n (by omega) m (by omega) st f hc'⟩⟩
      obtain ⟨m, rfl⟩ : ∃ m, n = m + 1 := ⟨n - 1, by omega⟩
      unfold enter
      rw [hl]
      simp only
      rw [h1 m (by omega), if_pos rfl]
      exact h0 m (by omega) m (by omega) [] y ⟨P, hPy, hst⟩
    | @link k _ b ns _ hk hF' =>
      rw [List.append_nil] at hF'
      obtain ⟨l, hl⟩ : ∃ l, S.link f = some l := by
        cases e : S.link f with
        | none => exact absurd e hk.isLink
        | some l => exact ⟨l, rfl⟩
      obtain ⟨hne, _⟩ := hs f l hl
      obtain ⟨b1, b2, b3⟩ := hk.base hi hne
      have hn : ns ≠ [] := by
        rintro rfl
        cases hF' with
        | circle hc => exact hc.isLink b3
        | link hk' _ => exact hk'.isLink b3
      obtain ⟨n0, hw⟩ := walk_fails hi hs ns k (fun k' h => ih k' (by omega)) b hn hk.plain b1 hF'
      rcases hw with hw | ⟨r, k2, w1, w2, w3, w4⟩
      · refine ⟨n0 + 1, fun n hn' => ?_⟩
        obtain ⟨j, rfl⟩ : ∃ j, n = j + 1 := ⟨n - 1, by omega⟩
        constructor
        · unfold enter
          rw [hl]
          simp only
          rw [(fsGet_target hk hl).1 hn]
          exact hw _ (by omega) true
        · intro m hm st
          obtain ⟨m, rfl⟩ : ∃ j, m = j + 1 := ⟨m - 1, by omega⟩
          rw [resolve, hl]
          simp only
          split
          · rfl
          · rw [(fsGet_target hk hl).1 hn, hw _ (by omega) false]; rfl
      · obtain ⟨n1, h1⟩ := ih k2 (by omega) r w1 w3
        refine ⟨n0 + n1 + 1, fun n hn' => ?_⟩
        obtain ⟨j, rfl⟩ : ∃ j, n = j + 1 := ⟨n - 1, by omega⟩
        obtain ⟨w5, w6⟩ := w4 (j + 1) (by omega)
        constructor
        · unfold enter
          rw [hl]
          simp only
          rw [(fsGet_target hk hl).1 hn]
          exact w5
        · intro m hm st
          obtain ⟨m, rfl⟩ : ∃ j, m = j + 1 := ⟨m - 1, by omega⟩
          rw [resolve, hl]
          simp only
          split
          · rfl
          · rw [(fsGet_target hk hl).1 hn, w6, bind_some_ok]
            exact (h1 (j + 1) (by omega)).2 m (by omega) _

/-! ### an error of the code has such a cause -/

/-- `Get` at this fuel fails only for a cause -/
def GetErr (S : FS) (n : Nat) : Prop := ∀ f c fl, S.has f → Plain c → G n S f c fl = some (.error ()) → ∃ k, F S k f [c]

theorem walk_err (hi : Inv b0 S) (hs : StraightLinks S) {n : Nat} (hg : GetErr S n) : ∀ (ns : List Str) (f : Path) (fl : Bool), ns ≠ [] → (∀ c ∈ ns, Plain c) →
    S.has f → walk (G n) S f ns fl = some (.error ()) → ∃ k, F S k f ns := by
  intro ns
  induction ns with
  | nil => intro f fl h; exact absurd rfl h
  | cons c cs ih =>
    intro f fl _ hp hf h
    cases cs with
    | nil => exact hg f c fl hf (hp c (by simp)) h
    | cons c2 cs =>
      rw [walk] at h
      · cases e : G n S f c false with
        | none => rw [e] at h; cases h
        | some r =>
          cases r with
          | error u =>
            obtain ⟨k, hk⟩ := hg f c false hf (hp c (by simp)) e
            exact ⟨k, hk.append (c2 :: cs)⟩
          | ok x =>
            obtain ⟨x1, x2⟩ := x
            obtain ⟨rfl, f', j, h1, h2, h3, _⟩ := get_fwd hi hs n f c false x1 x2 hf (hp c (by simp)) e
            have h3 := h3 rfl
            subst h3
            rw [e, bind_some_ok] at h
            obtain ⟨k, hk⟩ := ih (f' ++ [c]) fl (by simp) (fun x hx => hp x (by simp [hx])) h2 h
            exact ⟨_, h1.fails (.down h1.end h2 hk)⟩
      · simp

theorem target_err (hi : Inv b0 S) (hs : StraightLinks S) {n : Nat} (hg : GetErr S n) {f : Path} {l : Str} {fl : Bool}
    (hl : S.link f = some l) (h : fsGetWith (G n) S f.dropLast l fl = some (.error ())) : ∃ k, F S k f [] := by
  obtain ⟨hne, b, ns, hk⟩ := hs f l hl
  obtain ⟨b1, b2, b3⟩ := hk.base hi hne
  cases n with
  | zero =>
    exfalso
    have : ∀ (cs : List Str) d, cs ≠ [] → walk (G 0) S d cs fl = none := by
      intro cs d hc
      match cs, hc with
      | [c], _ => rfl
      | c :: c2 :: cs, _ =>
        rw [walk]
        · rfl
        · simp
    unfold fsGetWith at h
    simp only at h
    split at h
    · rw [this _ _ (split_ne_nil _ _)] at h; cases h
    · rw [this _ _ (split_ne_nil _ _)] at h; cases h
  | succ n =>
    obtain ⟨t1, t2⟩ := fsGet_target (n := n) (fl := fl) hk hl
    by_cases hn : ns = []
    · rw [t2 hn] at h
      exfalso
      cases fl with
      | false => simp at h
      | true =>
        rw [if_pos rfl] at h
        cases n with
        | zero => cases h
        | succ n => rw [resolve_here b3] at h; simp at h
    · rw [t1 hn] at h
      obtain ⟨k, hF⟩ := walk_err hi hs hg ns b fl hn hk.plain b1 h
      exact ⟨_, .link hk (by simpa using hF)⟩

/-- where the target of a link is, if it is not followed: it is not a link, or named -/
theorem target_names (hi : Inv b0 S) (hs : StraightLinks S) {n : Nat} {f : Path} {l : Str} {S' : FS} {r : Path}
    (hl : S.link f = some l) (h : fsGetWith (G n) S f.dropLast l false = some (.ok (S', r))) : S.link r = none ∨ Nm S f r := by
  obtain ⟨hne, b, ns, hk⟩ := hs f l hl
  obtain ⟨b1, b2, b3⟩ := hk.base hi hne
  cases n with
  | zero =>
    obtain ⟨_, _, h3⟩ := target_fwd hi hs (get_fwd hi hs 0) hl h
    exfalso
    have : ∀ (cs : List Str) d, cs ≠ [] → walk (G 0) S d cs false = none := by
      intro cs d hc
      match cs, hc with
      | [c], _ => rfl
      | c :: c2 :: cs, _ =>
        rw [walk]
        · rfl
        · simp
    unfold fsGetWith at h
    simp only at h
    split at h
    · rw [this _ _ (split_ne_nil _ _)] at h; cases h
    · rw [this _ _ (split_ne_nil _ _)] at h; cases h
  | succ n =>
    obtain ⟨t1, t2⟩ := fsGet_target (n := n) (fl := false) hk hl
    by_cases hn : ns = []
    · rw [t2 hn] at h
      simp only [Bool.false_eq_true, if_false, Option.some.injEq, Except.ok.injEq, Prod.mk.injEq] at h
      rw [← h.2]
      exact .inl b3
    · rw [t1 hn] at h
      right
      obtain ⟨_, _, h3⟩ := walk_fwd (get_fwd hi hs (n + 1)) ns b false S' r hn hk.plain b1 h
      obtain ⟨d, k, h4, h5⟩ := walk_lnk (get_fwd hi hs (n + 1)) ns b S' r hn hk.plain b1 h
      have e : ns.dropLast ++ [ns.getLast hn] = ns := List.dropLast_concat_getLast hn
      rw [List.getLast?_eq_some_getLast hn] at h5
      have h5 : r = d ++ [ns.getLast hn] := h5
      exact ⟨b, ns.dropLast, ns.getLast hn, d, k, by rw [e]; exact hk, h4, by rw [← h5]; exact (h3 rfl).1, h5⟩

/-- some steps of naming -/
inductive NmPlus (S : FS) : Path → Path → Prop where
  | one {f g : Path} : Nm S f g → NmPlus S f g
  | more {f g h : Path} : Nm S f g → NmPlus S g h → NmPlus S f h

theorem NmPlus.snoc {S : FS} {f g h : Path} (h1 : NmPlus S f g) (h2 : Nm S g h) : NmPlus S f h := by
  induction h1 with
  | one h => exact .more h (.one h2)
  | more h _ ih => exact .more h (ih h2)

theorem NmPlus.circ {S : FS} {f : Path} (h : NmPlus S f f) : Circ S f := by
  refine ⟨fun x => NmPlus S x f, h, ?_⟩
  intro x hx
  cases hx with
  | one h1 => exact ⟨f, h1, h⟩
  | more h1 h2 => exact ⟨_, h1, h2⟩

theorem resolve_err (hi : Inv b0 S) (hs : StraightLinks S) {n : Nat} (hg : GetErr S n) : ∀ (k : Nat) (st : List Path) (f : Path), S.has f →
    (∀ s ∈ st, NmPlus S s f) → resolve (fun S d l => fsGetWith (G n) S d l false) k S st f = some (.error ()) → ∃ j, F S j f [] := by
  intro k
  induction k with
  | zero => intro st f _ _ h; cases h
  | succ k ih =>
    intro st f hf hst h
    rw [resolve] at h
    cases hl : S.link f with
    | none => rw [hl] at h; cases h
    | some l =>
      rw [hl] at h
      simp only at h
      split at h
      · rename_i hin
        exact ⟨0, .circle (hst f hin).circ⟩
      · cases e : fsGetWith (G n) S f.dropLast l false with
        | none => rw [e] at h; cases h
        | some x =>
          cases x with
          | error u => exact target_err hi hs hg hl e
          | ok x =>
            obtain ⟨x1, x2⟩ := x
            obtain ⟨rfl, _, h3⟩ := target_fwd hi hs (get_fwd hi hs n) hl e
            obtain ⟨h4, _⟩ := h3 rfl
            rw [e, bind_some_ok] at h
            rcases target_names hi hs hl e with hn | hn
            · exfalso
              cases k with
              | zero => cases h
              | succ k => rw [resolve_here hn] at h; cases h
            · obtain ⟨j, hj⟩ := ih (f :: st) x2 h4 (by
                intro s hs'
                rcases List.mem_cons.mp hs' with rfl | hs'
                · exact .one hn
                · exact (hst s hs').snoc hn) h
              obtain ⟨b, ns, c, d, i, g1, g2, g3, rfl⟩ := hn
              exact ⟨_, .link g1 (by rw [List.append_nil]; exact g2.fails (.down g2.end g3 hj))⟩

theorem get_err (hi : Inv b0 S) (hs : StraightLinks S) : ∀ n, GetErr S n := by
  intro n
  induction n with
  | zero => intro f c fl _ _ h; cases h
  | succ n ih =>
    intro f c fl hf hc h
    have h : get (n + 1) S f c false fl = some (.error ()) := h
    rw [get] at h
    simp only at h
    rw [if_neg (show ¬ c = "..".toList from hc.2.2.1), if_neg (show ¬ c = ".".toList from hc.2.1)] at h
    cases e : enter (fun S d l => fsGetWith (G n) S d l true) S f with
    | none =>
      have e' : enter (fun S d l => fsGetWith (fun S d c fl => get n S d c false fl) S d l true) S f = none := e
      rw [e'] at h; cases h
    | some x =>
      cases x with
      | error u =>
        have hk : ∃ k, F S k f [] := by
          unfold enter at e
          cases hl : S.link f with
          | none => rw [hl] at e; cases e
          | some l =>
            rw [hl] at e
            exact target_err hi hs ih (fl := true) hl e
        obtain ⟨k, hk⟩ := hk
        exact ⟨k, hk.append [c]⟩
      | ok x =>
        obtain ⟨y1, y2⟩ := x
        have he : y1 = S ∧ ∃ j, R S j f [] y2 := by
          unfold enter at e
          cases hl : S.link f with
          | none =>
            rw [hl] at e
            simp only [Option.some.injEq, Except.ok.injEq, Prod.mk.injEq] at e
            obtain ⟨rfl, rfl⟩ := e
            exact ⟨rfl, 0, .done hl⟩
          | some l =>
            rw [hl] at e
            obtain ⟨h1, h2, _⟩ := target_fwd hi hs (get_fwd hi hs n) (fl := true) hl e
            exact ⟨h1, h2 rfl⟩
        obtain ⟨rfl, j, hr⟩ := he
        have e' : enter (fun S d l => fsGetWith (fun S d c fl => get n S d c false fl) S d l true) y1 f = some (.ok (y1, y2)) := e
        rw [e', bind_some_ok] at h
        by_cases hh : y1.has (y2 ++ [c])
        · simp only at h
          rw [makeDir_dir (has_dir hi hh).2.1, bind_some_ok, child_old hh, bind_some_ok] at h
          cases fl with
          | false => simp at h
          | true =>
            rw [if_pos rfl] at h
            obtain ⟨i, hF⟩ := resolve_err hi hs ih _ _ _ hh (by simp) h
            exact ⟨_, hr.fails (.down hr.end hh hF)⟩
        · exact ⟨_, hr.fails (.missing hr.end hh)⟩

end
end Squash
