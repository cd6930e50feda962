import Verif.Squash.Through
/-! Lemmas for C99: paths that pass through symlinks to nothing.  The directories such a symlink leads to are made on the way. -/
namespace Squash
open Go Spec

/-- from the node `f` (followed if it is a link) along `ns` to the place `d`, from which the names `ms` remain, the first of them missing -/
inductive N (S : FS) : Nat → Path → List Str → Path → List Str → Prop where
  | miss {f : Path} {c : Str} {cs : List Str} : S.link f = none → ¬ S.has (f ++ [c]) → N S 0 f (c :: cs) f (c :: cs)
  | down {k : Nat} {f : Path} {c : Str} {cs : List Str} {d : Path} {ms : List Str} : S.link f = none → S.has (f ++ [c]) → N S k (f ++ [c]) cs d ms →
      N S (k + 1) f (c :: cs) d ms
  | link {k : Nat} {f b : Path} {ns cs : List Str} {d : Path} {ms : List Str} : Lk S f b ns → N S k b (ns ++ cs) d ms → N S (k + 1) f cs d ms

theorem N.unique {S : FS} {k k' : Nat} {f : Path} {cs : List Str} {d d' : Path} {ms ms' : List Str} (h : N S k f cs d ms) (h' : N S k' f cs d' ms') :
    k = k' := by
  induction h generalizing k' with
  | miss hl hn =>
    cases h' with
    | miss _ _ => rfl
    | down _ hh _ => exact absurd hh hn
    | link hk _ => exact absurd hl hk.isLink
  | down hl hh _ ih =>
    cases h' with
    | miss _ hn => exact absurd hh hn
    | down _ _ h => rw [ih h]
    | link hk _ => exact absurd hl hk.isLink
  | link hk _ ih =>
    cases h' with
    | miss hl _ => exact absurd hl hk.isLink
    | down hl _ _ => exact absurd hl hk.isLink
    | link hk' h =>
      obtain ⟨rfl, rfl⟩ := hk.unique hk'
      rw [ih h]

theorem N.split {S : FS} {k : Nat} {f : Path} {xs ys : List Str} {d : Path} {ms : List Str} (h : N S k f (xs ++ ys) d ms) :
    (∃ ms', N S k f xs d ms' ∧ ms = ms' ++ ys) ∨ ∃ m k1 k2, R S k1 f xs m ∧ N S k2 m ys d ms ∧ k = k1 + k2 ∧ S.link m = none := by
  generalize e : xs ++ ys = zs at h
  induction h generalizing xs with
  | @miss f c cs hl hn =>
    cases xs with
    | nil =>
      simp only [List.nil_append] at e
      subst e
      exact .inr ⟨f, 0, 0, .done hl, .miss hl hn, rfl, hl⟩
    | cons x xs =>
      rw [List.cons_append] at e
      obtain ⟨rfl, rfl⟩ := List.cons.inj e
      exact .inl ⟨_, .miss hl hn, rfl⟩
  | @down k f c cs d ms hl hh hr ih =>
    cases xs with
    | nil =>
      simp only [List.nil_append] at e
      subst e
      exact .inr ⟨f, 0, _, .done hl, .down hl hh hr, by omega, hl⟩
    | cons x xs =>
      rw [List.cons_append] at e
      obtain ⟨rfl, rfl⟩ := List.cons.inj e
      rcases ih rfl with ⟨ms', h1, h2⟩ | ⟨m, k1, k2, h1, h2, rfl, h3⟩
      · exact .inl ⟨ms', .down hl hh h1, h2⟩
      · exact .inr ⟨m, k1 + 1, k2, .down hl hh h1, h2, by omega, h3⟩
  | @link k f b ns cs d ms hk hr ih =>
    subst e
    rcases ih (xs := ns ++ xs) (by simp) with ⟨ms', h1, h2⟩ | ⟨m, k1, k2, h1, h2, rfl, h3⟩
    · exact .inl ⟨ms', .link hk h1, h2⟩
    · exact .inr ⟨m, k1 + 1, k2, .link hk h1, h2, by omega, h3⟩

/-- one name: the node itself leads to nothing, or the name is missing, or it is there -/
theorem N.cons {S : FS} {k : Nat} {f : Path} {c : Str} {cs : List Str} {d : Path} {ms : List Str} (h : N S k f (c :: cs) d ms) :
    (∃ ms', N S k f [] d ms' ∧ ms = ms' ++ c :: cs) ∨ (R S k f [] d ∧ ms = c :: cs) ∨
    ∃ f' k1 k2, R S k1 f [] f' ∧ S.has (f' ++ [c]) ∧ N S k2 (f' ++ [c]) cs d ms ∧ k = k1 + k2 + 1 := by
  rcases N.split (xs := []) h with h | ⟨m, k1, k2, h1, h2, rfl, h3⟩
  · exact .inl h
  · cases h2 with
    | miss _ _ => exact .inr (.inl ⟨h1, rfl⟩)
    | down _ hh hr => exact .inr (.inr ⟨m, k1, _, h1, hh, hr, by omega⟩)
    | link hk _ => exact absurd h3 hk.isLink

/-- what the relation ends at -/
theorem N.facts {b0 : Bool} {S : FS} (hi : Inv b0 S) (hs : StraightLinks S) {k : Nat} {f : Path} {ns : List Str} {d : Path} {ms : List Str} (h : N S k f ns d ms) :
    S.has f → (∀ c ∈ ns, Plain c) → (∀ c ∈ f, Plain c) →
    S.has d ∧ (∀ c ∈ d, Plain c) ∧ (∀ c ∈ ms, Plain c) ∧ S.link d = none ∧ ∃ c cs, ms = c :: cs ∧ ¬ S.has (d ++ [c]) := by
  induction h with
  | miss hl hn => intro h1 h2 h3; exact ⟨h1, h3, h2, hl, _, _, rfl, hn⟩
  | down _ hh _ ih =>
    intro _ h2 h3
    refine ih hh (fun x hx => h2 x (by simp [hx])) ?_
    intro x hx
    rcases List.mem_append.mp hx with hx | hx
    · exact h3 x hx
    · exact h2 x (by simp at hx; simp [hx])
  | @link k f b ns cs d ms hk _ ih =>
    intro _ h2 h3
    have hl := hk.isLink
    cases e : S.link f with
    | none => exact absurd e hl
    | some l =>
      refine ih (hk.base hi (hs f l e).1).1 ?_ ?_
      · intro x hx
        rcases List.mem_append.mp hx with hx | hx
        · exact hk.plain x hx
        · exact h2 x hx
      · intro x hx
        obtain ⟨_, j, _, _, g3, _⟩ := hk
        rw [g3] at hx
        split at hx
        · simp at hx
        · exact h3 x (List.dropLast_subset _ ((dropN_prefix j _).subset hx))

/-! ### walking where nothing is -/

theorem walk_append {g : FS → Path → Str → Bool → Res (FS × Path)} {fl : Bool} {ys : List Str} (hy : ys ≠ []) : ∀ (xs : List Str) (S : FS) (d : Path), xs ≠ [] →
    walk g S d (xs ++ ys) fl = (walk g S d xs false).bind fun x => walk g x.1 x.2 ys fl := by
  intro xs
  induction xs with
  | nil => intro S d h; exact absurd rfl h
  | cons c cs ih =>
    intro S d _
    cases cs with
    | nil =>
      have : walk g S d ([c] ++ ys) fl = (g S d c false).bind fun x => walk g x.1 x.2 ys fl := by
        rw [List.cons_append, List.nil_append, walk]
        exact hy
      rw [this]
      rfl
    | cons c2 cs =>
      rw [List.cons_append, walk, walk]
      · cases hg : g S d c false with
        | none => rfl
        | some r =>
          cases r with
          | error e => rfl
          | ok x => rw [bind_some_ok, bind_some_ok]; exact ih _ _ (by simp)
      · simp
      · simp

/-- a last element that is no link is not followed -/
theorem walk_nolink {n : Nat} : ∀ (cs : List Str) (S : FS) (d : Path) (S' : FS) (q : Path), (∀ c ∈ cs, Plain c) →
    walk (Gc true (n + 2)) S d cs false = some (.ok (S', q)) → S'.link q = none → walk (Gc true (n + 2)) S d cs true = some (.ok (S', q)) := by
  intro cs
  induction cs with
  | nil => intro S d S' q _ h _; exact h
  | cons c cs ih =>
    intro S d S' q hp h hl
    cases cs with
    | nil =>
      have hc := hp c (by simp)
      have h : get (n + 2) S d c true false = some (.ok (S', q)) := h
      show get (n + 2) S d c true true = _
      rw [get] at h ⊢
      simp only at h ⊢
      rw [if_neg (show ¬ c = "..".toList from hc.2.2.1), if_neg (show ¬ c = ".".toList from hc.2.1)] at h ⊢
      obtain ⟨x, e1, h'⟩ := bind_ok.mp h
      clear h
      rw [e1, bind_some_ok]
      rw [if_neg (by simp)] at h'
      simp only [Option.some.injEq, Except.ok.injEq] at h'
      subst h'
      rw [if_pos trivial]
      exact resolve_here hl
    | cons c2 cs =>
      rw [walk] at h ⊢
      · obtain ⟨x, e1, h'⟩ := bind_ok.mp h
        rw [e1, bind_some_ok]
        exact ih _ _ _ _ (fun y hy => hp y (by simp [hy])) h' hl
      · simp
      · simp

/-- the walk from `d` along `ms` makes the places it passes and ends with `S1` at `d ++ ms`, which is no link -/
def Makes (S : FS) (d : Path) (ms : List Str) (S1 : FS) : Prop := S1.link (d ++ ms) = none ∧
  ∀ n, 3 ≤ n → walk (Gc true n) S d ms false = some (.ok (S1, d ++ ms))

theorem Makes.true {S : FS} {d : Path} {ms : List Str} {S1 : FS} (h : Makes S d ms S1) (hp : ∀ c ∈ ms, Plain c) {n : Nat} (hn : 3 ≤ n) :
    walk (Gc true n) S d ms true = some (.ok (S1, d ++ ms)) := by
  obtain ⟨m, rfl⟩ : ∃ m, n = m + 2 := ⟨n - 2, by omega⟩
  exact walk_nolink _ _ _ _ _ hp (h.2 _ hn) h.1

theorem missing_below {b0 : Bool} {S : FS} (hi : Inv b0 S) {p : Path} (h : ¬ S.has p) (t : List Str) : ¬ S.has (p ++ t) := fun h' => h (hi.prefix h')

theorem link_missing {S : FS} {p : Path} (h : ¬ S.has p) : S.link p = none := by
  cases e : S.link p with
  | none => rfl
  | some l => exact absurd (has_link e) h

/-- no links from `d` on -/
theorem no_links {b0 : Bool} {S : FS} (hi : Inv b0 S) {d : Path} {c : Str} {cs : List Str} (hl : S.link d = none) (hn : ¬ S.has (d ++ [c])) :
    ∀ t, t <+: c :: cs → S.link (d ++ t) = none := by
  intro t ht
  cases t with
  | nil => simpa using hl
  | cons x t =>
    obtain ⟨rfl, _⟩ := List.cons_prefix_cons.mp ht
    refine link_missing ?_
    have := missing_below hi hn t
    simpa using this

theorem makes {S : FS} {b0 : Bool} (hi : Inv b0 S) {d : Path} {c : Str} {cs : List Str} (hd : S.has d) (hl : S.link d = none)
    (hp : ∀ x ∈ c :: cs, Plain x) (hn : ¬ S.has (d ++ [c])) : ∃ S1, Makes S d (c :: cs) S1 := by
  obtain ⟨S1, w1, _, w3, _⟩ := walk_exact (n := 0) (c :: cs) S d hi hd (by simp) hp (fun t ht _ => no_links hi hl hn t ht)
  refine ⟨S1, ?_, fun n hn' => ?_⟩
  · cases e : S1.link (d ++ (c :: cs)) with
    | none => rfl
    | some l =>
      have := w3 _ _ e
      rw [no_links hi hl hn _ (List.prefix_refl _)] at this
      cases this
  · exact (walk_le (fun S d c fl => get_le 3 n hn' S d c true fl) (c :: cs) S d false).some w1

section
variable {b0 : Bool} {S : FS}

/-- a link to nothing is followed -/
def LostOk (S : FS) (k : Nat) : Prop := ∀ f d ms, S.has f → (∀ c ∈ f, Plain c) → N S k f [] d ms → ∃ n0 S1, Makes S d ms S1 ∧ ∀ n, n0 ≤ n →
  enter (fun S d l => fsGetWith (Gc true n) S d l true) S f = some (.ok (S1, d ++ ms)) ∧
  ∀ m, n0 ≤ m → ∀ st, (∀ s ∈ st, ∃ k', k < k' ∧ N S k' s [] d ms) →
    resolve (fun S d l => fsGetWith (Gc true n) S d l false) m S st f = some (.ok (S1, d ++ ms))

/-- walking on from a link to nothing -/
theorem walk_lost {f d : Path} {ms : List Str} {S1 : FS} {n0 : Nat} (hms : ms ≠ []) (hm : Makes S d ms S1)
    (he : ∀ n, n0 ≤ n → enter (fun S d l => fsGetWith (Gc true n) S d l true) S f = some (.ok (S1, d ++ ms))) :
    ∀ n, n0 + 3 ≤ n → ∀ bs fl, bs ≠ [] → (∀ c ∈ bs, Plain c) → walk (Gc true n) S f bs fl = walk (Gc true n) S d (ms ++ bs) fl := by
  intro n hn bs fl hb hp
  rw [walk_append hb ms S d hms, hm.2 n (by omega), bind_some_ok]
  obtain ⟨m, rfl⟩ : ∃ m, n = m + 1 := ⟨n - 1, by omega⟩
  have key : ∀ c fl, Plain c → Gc true (m + 1) S f c fl = Gc true (m + 1) S1 (d ++ ms) c fl := by
    intro c fl hc
    show get (m + 1) S f c true fl = get (m + 1) S1 (d ++ ms) c true fl
    rw [get, get]
    simp only
    rw [if_neg (show ¬ c = "..".toList from hc.2.2.1), if_neg (show ¬ c = ".".toList from hc.2.1), he m (by omega), enter_dir hm.1,
      if_neg (show ¬ c = "..".toList from hc.2.2.1), if_neg (show ¬ c = ".".toList from hc.2.1)]
  match bs, hb with
  | [c], _ => exact key c fl (hp c (by simp))
  | c :: c2 :: cs, _ =>
    rw [walk, walk]
    · rw [key c false (hp c (by simp))]
    · simp
    · simp

theorem walk_lost_bwd (hi : Inv b0 S) (hs : StraightLinks S) : ∀ (ns : List Str) (k : Nat), (∀ k' ≤ k, LostOk S k') → ∀ f d ms, ns ≠ [] → (∀ c ∈ ns, Plain c) →
    S.has f → (∀ c ∈ f, Plain c) → N S k f ns d ms → ∃ n0 S1, Makes S d ms S1 ∧ (∀ n, n0 ≤ n → walk (Gc true n) S f ns true = some (.ok (S1, d ++ ms))) ∧
      ((∀ n, n0 ≤ n → walk (Gc true n) S f ns false = some (.ok (S1, d ++ ms))) ∨
       ∃ r k2, S.has r ∧ (∀ c ∈ r, Plain c) ∧ k2 < k ∧ N S k2 r [] d ms ∧ ∀ n, n0 ≤ n → walk (Gc true n) S f ns false = some (.ok (S, r))) := by
  intro ns
  induction ns with
  | nil => intro k _ f d ms h; exact absurd rfl h
  | cons c cs ih =>
    intro k hk f d ms _ hp hf hfp hr
    obtain ⟨hd, hdp, hmp, hdl, c0, cs0, ems, hno⟩ := hr.facts hi hs hf hp hfp
    obtain ⟨S1, hm⟩ := makes hi hd hdl (ems ▸ hmp) hno
    rw [← ems] at hm
    rcases hr.cons with ⟨ms', h1, h2⟩ | ⟨h1, h2⟩ | ⟨f', k1, k2, h1, h2, h3, rfl⟩
    · obtain ⟨n0, S2, g1, g2⟩ := hk k (Nat.le_refl _) f d ms' hf hfp h1
      have hne : ms' ≠ [] := by
        obtain ⟨_, _, _, _, c1, cs1, e1, _⟩ := h1.facts hi hs hf (by simp) hfp
        rw [e1]; simp
      have hw := walk_lost hne g1 (fun n hn => (g2 n hn).1)
      refine ⟨n0 + 3, S1, hm, fun n hn => ?_, .inl fun n hn => ?_⟩
      · rw [hw n hn _ true (by simp) hp, ← h2]; exact hm.true hmp (by omega)
      · rw [hw n hn _ false (by simp) hp, ← h2]; exact hm.2 n (by omega)
    · obtain ⟨n0, hw⟩ := walk_from (cr := true) hi hs hf h1
      refine ⟨n0 + 3, S1, hm, fun n hn => ?_, .inl fun n hn => ?_⟩
      · rw [hw n (by omega) _ true (by simp) hp, ← h2]; exact hm.true hmp (by omega)
      · rw [hw n (by omega) _ false (by simp) hp, ← h2]; exact hm.2 n (by omega)
    · have hfp' : ∀ x ∈ f' ++ [c], Plain x := by
        obtain ⟨_, q⟩ := h1.hasP hi hs hf (by simp) hfp
        intro x hx
        rcases List.mem_append.mp hx with hx | hx
        · exact q x hx
        · exact hp x (by simp at hx; simp [hx])
      obtain ⟨⟨n1, g1⟩, _⟩ := get_bwd hi (follow_bwd (cr := true) hi hs k1) hf (hp c (by simp)) h1 h2
      cases cs with
      | nil =>
        obtain ⟨n2, S2, g2, g3⟩ := hk k2 (by omega) _ d ms h2 hfp' h3
        obtain ⟨n3, g4⟩ := follow_bwd (cr := true) hi hs k1 f f' hf h1
        have hc := hp c (by simp)
        refine ⟨n1 + n2 + n3 + 1, S2, g2, fun n hn => ?_, .inr ⟨f' ++ [c], k2, h2, hfp', by omega, h3, fun n hn => g1 n (by omega)⟩⟩
        obtain ⟨m, rfl⟩ : ∃ m, n = m + 1 := ⟨n - 1, by omega⟩
        show get (m + 1) S f c true true = _
        rw [get]
        simp only
        rw [if_neg (show ¬ c = "..".toList from hc.2.2.1), if_neg (show ¬ c = ".".toList from hc.2.1), (g4 m (by omega)).1, bind_some_ok]
        simp only
        rw [makeDir_dir (has_dir hi h2).2.1, bind_some_ok, child_old h2, bind_some_ok, if_pos trivial]
        exact (g3 m (by omega)).2 m (by omega) [] (by simp)
      | cons c2 cs =>
        obtain ⟨n2, S2, w1, w2, w3⟩ := ih k2 (fun k' h => hk k' (by omega)) (f' ++ [c]) d ms (by simp) (fun x hx => hp x (by simp [hx])) h2 hfp' h3
        have hstep : ∀ n, n1 ≤ n → ∀ fl, walk (Gc true n) S f (c :: c2 :: cs) fl = walk (Gc true n) S (f' ++ [c]) (c2 :: cs) fl := by
          intro n hn fl
          rw [walk]
          · rw [g1 n hn, bind_some_ok]
          · simp
        refine ⟨n1 + n2, S2, w1, fun n hn => by rw [hstep n (by omega)]; exact w2 n (by omega), ?_⟩
        rcases w3 with w3 | ⟨r, k3, a1, a2, a3, a4, a5⟩
        · exact .inl fun n hn => by rw [hstep n (by omega)]; exact w3 n (by omega)
        · exact .inr ⟨r, k3, a1, a2, by omega, a4, fun n hn => by rw [hstep n (by omega)]; exact a5 n (by omega)⟩

theorem lost_bwd (hi : Inv b0 S) (hs : StraightLinks S) : ∀ k, LostOk S k := by
  intro k
  induction k using Nat.strongRecOn with
  | ind k ih =>
    intro f d ms hf hfp hr
    cases hr with
    | @link k _ b ns _ _ _ hk hr' =>
      have hrf : N S (k + 1) f [] d ms := .link hk hr'
      rw [List.append_nil] at hr'
      obtain ⟨l, hl⟩ : ∃ l, S.link f = some l := by
        cases e : S.link f with
        | none => exact absurd e hk.isLink
        | some l => exact ⟨l, rfl⟩
      obtain ⟨hne, _⟩ := hs f l hl
      obtain ⟨b1, b2, b3⟩ := hk.base hi hne
      have hbp : ∀ c ∈ b, Plain c := by
        intro x hx
        obtain ⟨_, j, _, _, g3, _⟩ := hk
        rw [g3] at hx
        split at hx
        · simp at hx
        · exact hfp x (List.dropLast_subset _ ((dropN_prefix j _).subset hx))
      have hn : ns ≠ [] := by
        rintro rfl
        cases hr' with
        | link hk' _ => exact absurd b3 hk'.isLink
      obtain ⟨n0, S1, hm, w1, w2⟩ := walk_lost_bwd hi hs ns k (fun k' h => ih k' (by omega)) b d ms hn hk.plain b1 hbp hr'
      have henter : ∀ n, n0 + 1 ≤ n → enter (fun S d l => fsGetWith (Gc true n) S d l true) S f = some (.ok (S1, d ++ ms)) := by
        intro n hn'
        obtain ⟨m, rfl⟩ : ∃ m, n = m + 1 := ⟨n - 1, by omega⟩
        unfold enter
        rw [hl]
        simp only
        rw [(fsGet_target hk hl).1 hn]
        exact w1 _ (by omega)
      have hin : ∀ st : List Path, (∀ s ∈ st, ∃ k', k + 1 < k' ∧ N S k' s [] d ms) → f ∉ st := by
        intro st hst hm
        obtain ⟨k', h6, h7⟩ := hst f hm
        have := h7.unique hrf
        omega
      rcases w2 with w2 | ⟨r, k2, a1, a2, a3, a4, a5⟩
      · refine ⟨n0 + 2, S1, hm, fun n hn' => ⟨henter n (by omega), ?_⟩⟩
        intro m hm' st hst
        obtain ⟨m, rfl⟩ : ∃ j, m = j + 2 := ⟨m - 2, by omega⟩
        rw [resolve, hl]
        simp only
        rw [if_neg (hin st hst)]
        obtain ⟨n, rfl⟩ : ∃ j, n = j + 1 := ⟨n - 1, by omega⟩
        rw [(fsGet_target hk hl).1 hn, w2 _ (by omega), bind_some_ok]
        exact resolve_here hm.1
      · obtain ⟨n1, S2, g1, g2⟩ := ih k2 (by omega) r d ms a1 a2 a4
        have hS : S2 = S1 := by
          have e1 := g1.2 3 (by omega)
          rw [hm.2 3 (by omega)] at e1
          simp only [Option.some.injEq, Except.ok.injEq, Prod.mk.injEq] at e1
          exact e1.1.symm
        subst hS
        refine ⟨n0 + n1 + 1, S2, hm, fun n hn' => ⟨henter n (by omega), ?_⟩⟩
        intro m hm' st hst
        obtain ⟨m, rfl⟩ : ∃ j, m = j + 1 := ⟨m - 1, by omega⟩
        rw [resolve, hl]
        simp only
        rw [if_neg (hin st hst)]
        obtain ⟨n, rfl⟩ : ∃ j, n = j + 1 := ⟨n - 1, by omega⟩
        rw [(fsGet_target hk hl).1 hn, a5 _ (by omega), bind_some_ok]
        refine (g2 (n + 1) (by omega)).2 m (by omega) (f :: st) ?_
        intro s hs
        rcases List.mem_cons.mp hs with rfl | hs
        · exact ⟨_, by omega, hrf⟩
        · obtain ⟨k', h6, h7⟩ := hst s hs
          exact ⟨k', by omega, h7⟩

/-- walking through links to nothing -/
theorem walk_through_lost (hi : Inv b0 S) (hs : StraightLinks S) : ∀ (as : List Str) (k : Nat) (f d : Path) (ms : List Str), S.has f → (∀ c ∈ f, Plain c) →
    (∀ c ∈ as, Plain c) → N S k f as d ms →
    ∃ n0, ∀ n, n0 ≤ n → ∀ bs fl, bs ≠ [] → (∀ c ∈ bs, Plain c) → walk (Gc true n) S f (as ++ bs) fl = walk (Gc true n) S d (ms ++ bs) fl := by
  have base : ∀ (k : Nat) (f d : Path) (ms : List Str), S.has f → (∀ c ∈ f, Plain c) → N S k f [] d ms →
      ∃ n0, ∀ n, n0 ≤ n → ∀ bs fl, bs ≠ [] → (∀ c ∈ bs, Plain c) → walk (Gc true n) S f bs fl = walk (Gc true n) S d (ms ++ bs) fl := by
    intro k f d ms hf hfp hr
    obtain ⟨n0, S1, g1, g2⟩ := lost_bwd hi hs k f d ms hf hfp hr
    obtain ⟨_, _, _, _, c1, cs1, e1, _⟩ := hr.facts hi hs hf (by simp) hfp
    exact ⟨n0 + 3, walk_lost (by rw [e1]; simp) g1 (fun n hn => (g2 n hn).1)⟩
  intro as
  induction as with
  | nil => intro k f d ms hf hfp _ hr; exact base k f d ms hf hfp hr
  | cons c cs ih =>
    intro k f d ms hf hfp hp hr
    rcases hr.cons with ⟨ms', h1, rfl⟩ | ⟨h1, rfl⟩ | ⟨f', k1, k2, h1, h2, h3, _⟩
    · obtain ⟨n0, h⟩ := base k f d ms' hf hfp h1
      refine ⟨n0, fun n hn bs fl hb hpb => ?_⟩
      rw [h n hn ((c :: cs) ++ bs) fl (by simp) (by
        intro x hx
        rcases List.mem_append.mp hx with hx | hx
        · exact hp x hx
        · exact hpb x hx), List.append_assoc]
    · obtain ⟨n0, h⟩ := walk_from (cr := true) hi hs hf h1
      refine ⟨n0, fun n hn bs fl hb hpb => h n hn _ fl (by simp) ?_⟩
      intro x hx
      rcases List.mem_append.mp hx with hx | hx
      · exact hp x hx
      · exact hpb x hx
    · obtain ⟨⟨n1, g1⟩, _⟩ := get_bwd hi (follow_bwd (cr := true) hi hs k1) hf (hp c (by simp)) h1 h2
      obtain ⟨n2, w⟩ := ih k2 (f' ++ [c]) d ms h2 (by
        obtain ⟨_, q⟩ := h1.hasP hi hs hf (by simp) hfp
        intro x hx
        rcases List.mem_append.mp hx with hx | hx
        · exact q x hx
        · exact hp x (by simp at hx; simp [hx])) (fun x hx => hp x (by simp [hx])) h3
      refine ⟨n1 + n2, fun n hn bs fl hb hpb => ?_⟩
      rw [List.cons_append, walk]
      · rw [g1 n (by omega), bind_some_ok]
        exact w n (by omega) bs fl hb hpb
      · intro e; exact hb (List.append_eq_nil_iff.mp e).2

end

end Squash
