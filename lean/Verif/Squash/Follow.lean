import Verif.Squash.Fuel
import Verif.Squash.PropsLookup
/-! Lemmas for C98: lookups for reading, as a relation. -/
namespace Squash
open Go Spec

/-! ### elements of a link's target -/

/-- ".." any number of times, then ordinary names -/
def Ups (j : Nat) (ns cs : List Str) : Prop := cs = List.replicate j "..".toList ++ ns ∧ ∀ c ∈ ns, Plain c

def dropN : Nat → Path → Path
  | 0, p => p
  | j + 1, p => dropN j p.dropLast

theorem cleanStep_skip {r : Bool} {st : List Str} {c : Str} (h : ¬ (c ≠ [] ∧ c ≠ ".".toList)) : cleanStep r st c = st := by
  unfold cleanStep
  rw [if_pos]
  by_cases h1 : c = []
  · exact .inl h1
  · exact .inr (Classical.byContradiction fun h2 => h ⟨h1, h2⟩)

theorem foldl_comps (r : Bool) : ∀ (cs st : List Str),
    cs.foldl (cleanStep r) st = (cs.filter (fun c => c ≠ [] ∧ c ≠ ".".toList)).foldl (cleanStep r) st := by
  intro cs
  induction cs with
  | nil => intro st; rfl
  | cons c cs ih =>
    intro st
    by_cases h : c ≠ [] ∧ c ≠ ".".toList
    · rw [List.filter_cons_of_pos (by simpa using h), List.foldl_cons, List.foldl_cons, ih]
    · rw [List.filter_cons_of_neg (by simpa using h), List.foldl_cons, cleanStep_skip h, ih]

theorem foldl_plain (r : Bool) : ∀ (ns st : List Str), (∀ c ∈ ns, Plain c) → ns.foldl (cleanStep r) st = ns.reverse ++ st := by
  intro ns
  induction ns with
  | nil => intro st _; rfl
  | cons c ns ih =>
    intro st h
    obtain ⟨h1, h2, h3, _⟩ := h c (by simp)
    have : cleanStep r st c = c :: st := by
      unfold cleanStep
      rw [if_neg (by rintro (h | h); exact h1 h; exact h2 h), if_neg h3]
    rw [List.foldl_cons, this, ih _ (fun x hx => h x (by simp [hx]))]
    simp

theorem foldl_ups_rel : ∀ (j i : Nat), (List.replicate j "..".toList).foldl (cleanStep false) (List.replicate i "..".toList) = List.replicate (j + i) "..".toList := by
  intro j
  induction j with
  | zero => intro i; simp
  | succ j ih =>
    intro i
    have : cleanStep false (List.replicate i "..".toList) "..".toList = List.replicate (i + 1) "..".toList := by
      cases i with
      | zero => decide
      | succ i => rw [List.replicate_succ, cleanStep, if_neg (by decide), if_pos (by decide)]; rfl
    rw [List.replicate_succ, List.foldl_cons, this, ih]
    congr 1; omega

theorem foldl_ups_abs : ∀ (j : Nat), (List.replicate j "..".toList).foldl (cleanStep true) [] = [] := by
  intro j
  induction j with
  | zero => rfl
  | succ j ih => rw [List.replicate_succ, List.foldl_cons, show cleanStep true [] "..".toList = [] by decide, ih]

theorem cleanElems_ups {r : Bool} {j : Nat} {ns : List Str} {l : Str} (h : Ups j ns (comps l)) :
    cleanElems r (split '/' l) = if r then ns else List.replicate j "..".toList ++ ns := by
  unfold cleanElems
  rw [foldl_comps]
  have e : (split '/' l).filter (fun c => decide (c ≠ [] ∧ c ≠ ".".toList)) = comps l := rfl
  rw [e, h.1, List.foldl_append]
  cases r with
  | true => rw [foldl_ups_abs, foldl_plain _ _ _ h.2]; simp
  | false =>
    rw [show ([] : List Str) = List.replicate 0 "..".toList from rfl, foldl_ups_rel, foldl_plain _ _ _ h.2]
    simp

/-- what `fsGet` is given for a link's target: where it starts and which elements it follows -/
theorem clean_ups {j : Nat} {ns : List Str} {l : Str} (h : Ups j ns (comps l)) :
    isRooted (clean l) = isRooted l ∧
    (isRooted l = true → split '/' ((clean l).drop 1) = if ns = [] then [[]] else ns) ∧
    (isRooted l = false → split '/' (clean l) = if List.replicate j "..".toList ++ ns = [] then [['.']] else List.replicate j "..".toList ++ ns) := by
  have hns : ∀ c ∈ ns, '/' ∉ c := fun c hc => (h.2 c hc).2.2.2
  have hups : ∀ c ∈ List.replicate j "..".toList ++ ns, '/' ∉ c := by
    intro c hc
    rcases List.mem_append.mp hc with hc | hc
    · rw [(List.mem_replicate.mp hc).2]; decide
    · exact hns c hc
  obtain ⟨cs, hcs, hr, ec, h1, h2⟩ := split_clean l
  have hce : clean l = render (isRooted l) (cleanElems (isRooted l) (split '/' l)) := rfl
  refine ⟨hr, ?_, ?_⟩
  · intro hroot
    rw [hce, hroot, cleanElems_ups h]
    have := split_render (rooted := false) (cs := ns) hns
    simp only [render, Bool.false_eq_true, if_false, if_true, List.drop_succ_cons, List.drop_zero] at this ⊢
    by_cases hn : ns = []
    · rw [if_pos hn, hn]; rfl
    · rw [if_neg hn] at this; rw [if_neg hn, this, if_neg hn]
  · intro hroot
    rw [hce, hroot, cleanElems_ups h]
    have := split_render (rooted := false) (cs := List.replicate j "..".toList ++ ns) hups
    simpa using this

/-! ### a link's target -/

/-- the symlink at `f` leads to `ns` below the directory `b` -/
def Lk (S : FS) (f b : Path) (ns : List Str) : Prop :=
  ∃ l j, S.link f = some l ∧ Ups j ns (comps l) ∧ b = (if isRooted l then [] else dropN j f.dropLast) ∧ (isRooted l = true → ns ≠ [])

/-- all targets of symlinks have this form -/
def StraightLinks (S : FS) : Prop := ∀ f l, S.link f = some l → f ≠ [] ∧ ∃ b ns, Lk S f b ns

theorem ups_unique : ∀ {j j' : Nat} {ns ns' : List Str}, (∀ c ∈ ns, Plain c) → (∀ c ∈ ns', Plain c) →
    List.replicate j "..".toList ++ ns = List.replicate j' "..".toList ++ ns' → j = j' ∧ ns = ns' := by
  intro j
  induction j with
  | zero =>
    intro j' ns ns' h h' e
    cases j' with
    | zero => exact ⟨rfl, by simpa using e⟩
    | succ j' =>
      exfalso
      rw [List.replicate_succ] at e
      simp only [List.replicate_zero, List.nil_append, List.cons_append] at e
      have := h "..".toList (by rw [e]; simp)
      exact this.2.2.1 rfl
  | succ j ih =>
    intro j' ns ns' h h' e
    cases j' with
    | zero =>
      exfalso
      rw [List.replicate_succ] at e
      simp only [List.replicate_zero, List.nil_append, List.cons_append] at e
      have := h' "..".toList (by rw [← e]; simp)
      exact this.2.2.1 rfl
    | succ j' =>
      rw [List.replicate_succ, List.replicate_succ, List.cons_append, List.cons_append] at e
      obtain ⟨rfl, rfl⟩ := ih h h' (List.cons.inj e).2
      exact ⟨rfl, rfl⟩

theorem Lk.unique {S : FS} {f b b' : Path} {ns ns' : List Str} (h : Lk S f b ns) (h' : Lk S f b' ns') : b = b' ∧ ns = ns' := by
  obtain ⟨l, j, h1, h2, h3, _⟩ := h
  obtain ⟨l', j', h1', h2', h3', _⟩ := h'
  rw [h1] at h1'
  injection h1' with e
  subst e
  obtain ⟨rfl, rfl⟩ := ups_unique h2.2 h2'.2 (h2.1.symm.trans h2'.1)
  exact ⟨h3.trans h3'.symm, rfl⟩

theorem Lk.plain {S : FS} {f b : Path} {ns : List Str} (h : Lk S f b ns) : ∀ c ∈ ns, Plain c := by
  obtain ⟨_, _, _, h2, _, _⟩ := h
  exact h2.2

theorem dropN_prefix : ∀ (j : Nat) (p : Path), dropN j p <+: p := by
  intro j
  induction j with
  | zero => intro p; exact List.prefix_refl _
  | succ j ih => intro p; exact (ih _).trans (List.dropLast_prefix p)

/-- a place above an existing file is a directory -/
theorem dir_above {b : Bool} {S : FS} (hi : Inv b S) {f q : Path} (hf : S.has f) (hne : f ≠ []) (hq : q <+: f.dropLast) :
    S.has q ∧ S.nonDir q = false ∧ S.link q = none := by
  obtain ⟨t, ht⟩ := hq
  obtain ⟨d, c, rfl⟩ := (snoc_cases f).resolve_left hne
  rw [List.dropLast_concat] at ht
  subst ht
  have hn : S.nonDir q = false := by
    cases e : S.nonDir q with
    | false => rfl
    | true =>
      exfalso
      cases t with
      | nil =>
        have := hi.leaf q e c
        rw [List.append_nil] at hf
        rw [FS.has, this] at hf
        cases hf
      | cons x t =>
        have h1 : S.has (q ++ [x]) := hi.prefix (q := t ++ [c]) (by simpa using hf)
        rw [FS.has, hi.leaf q e x] at h1
        cases h1
  exact ⟨hi.prefix (q := t ++ [c]) (by simpa using hf), hn, link_none_of_dir hn⟩

theorem has_link {S : FS} {f : Path} {l : Str} (h : S.link f = some l) : S.has f := by
  unfold FS.link at h
  cases e : S.get? f with
  | none => rw [e] at h; cases h
  | some nd => exact has_of e

theorem Lk.base {b' : Bool} {S : FS} (hi : Inv b' S) {f b : Path} {ns : List Str} (h : Lk S f b ns) (hne : f ≠ []) :
    S.has b ∧ S.nonDir b = false ∧ S.link b = none := by
  obtain ⟨l, j, h1, _, h3, _⟩ := h
  apply dir_above hi (has_link h1) hne
  rw [h3]
  split
  · exact List.nil_prefix
  · exact dropN_prefix _ _

/-! ### following, as a relation -/

/-- from the node `f` (followed if it is a link) along `ns` to `p`, in `k` steps -/
inductive R (S : FS) : Nat → Path → List Str → Path → Prop where
  | done {f : Path} : S.link f = none → R S 0 f [] f
  | down {k : Nat} {f : Path} {c : Str} {cs : List Str} {p : Path} : S.link f = none → S.has (f ++ [c]) → R S k (f ++ [c]) cs p → R S (k + 1) f (c :: cs) p
  | link {k : Nat} {f b : Path} {ns cs : List Str} {p : Path} : Lk S f b ns → R S k b (ns ++ cs) p → R S (k + 1) f cs p

theorem Lk.isLink {S : FS} {f b : Path} {ns : List Str} (h : Lk S f b ns) : S.link f ≠ none := by
  obtain ⟨l, _, h1, _⟩ := h
  rw [h1]; exact fun e => (nomatch e)

theorem R.unique {S : FS} {k k' : Nat} {f : Path} {cs : List Str} {p p' : Path} (h : R S k f cs p) (h' : R S k' f cs p') : k = k' ∧ p = p' := by
  induction h generalizing k' with
  | done hl =>
    cases h' with
    | done _ => exact ⟨rfl, rfl⟩
    | link hk _ => exact absurd hl hk.isLink
  | down hl _ _ ih =>
    cases h' with
    | down _ _ h => obtain ⟨rfl, rfl⟩ := ih h; exact ⟨rfl, rfl⟩
    | link hk _ => exact absurd hl hk.isLink
  | link hk _ ih =>
    cases h' with
    | done hl => exact absurd hl hk.isLink
    | down hl _ _ => exact absurd hl hk.isLink
    | link hk' h =>
      obtain ⟨rfl, rfl⟩ := hk.unique hk'
      obtain ⟨rfl, rfl⟩ := ih h
      exact ⟨rfl, rfl⟩

theorem R.split {S : FS} {k : Nat} {f : Path} {xs ys : List Str} {p : Path} (h : R S k f (xs ++ ys) p) :
    ∃ m k1 k2, R S k1 f xs m ∧ R S k2 m ys p ∧ k = k1 + k2 ∧ S.link m = none := by
  generalize e : xs ++ ys = zs at h
  induction h generalizing xs with
  | @done f hl =>
    obtain ⟨rfl, rfl⟩ := List.append_eq_nil_iff.mp e
    exact ⟨f, 0, 0, .done hl, .done hl, rfl, hl⟩
  | @down k f c cs p hl hh hr ih =>
    cases xs with
    | nil =>
      simp only [List.nil_append] at e
      subst e
      exact ⟨f, 0, _, .done hl, .down hl hh hr, by omega, hl⟩
    | cons x xs =>
      rw [List.cons_append] at e
      obtain ⟨rfl, rfl⟩ := List.cons.inj e
      obtain ⟨m, k1, k2, h1, h2, rfl, h3⟩ := ih rfl
      exact ⟨m, k1 + 1, k2, .down hl hh h1, h2, by omega, h3⟩
  | @link k f b ns cs p hk hr ih =>
    subst e
    obtain ⟨m, k1, k2, h1, h2, rfl, h3⟩ := ih (xs := ns ++ xs) (by simp)
    exact ⟨m, k1 + 1, k2, .link hk h1, h2, by omega, h3⟩

theorem R.append {S : FS} {k1 k2 : Nat} {f : Path} {xs ys : List Str} {m p : Path} (h : R S k1 f xs m) (h' : R S k2 m ys p) : R S (k1 + k2) f (xs ++ ys) p := by
  induction h with
  | done _ => simpa using h'
  | @down k f c cs p hl hh hr ih =>
    have := R.down hl hh (ih h')
    rw [List.cons_append]
    rwa [show k + 1 + k2 = k + k2 + 1 by omega]
  | @link k f b ns cs p hk hr ih =>
    have h := ih h'
    rw [List.append_assoc] at h
    have := R.link hk h
    rwa [show k + 1 + k2 = k + k2 + 1 by omega]

theorem R.end {S : FS} {k : Nat} {f : Path} {cs : List Str} {p : Path} (h : R S k f cs p) : S.link p = none := by
  induction h with
  | done h => exact h
  | down _ _ _ ih => exact ih
  | link _ _ ih => exact ih

/-- one name: follow, look up, follow -/
theorem R.cons {S : FS} {k : Nat} {f : Path} {c : Str} {cs : List Str} {p : Path} (h : R S k f (c :: cs) p) :
    ∃ f' k1 k2, R S k1 f [] f' ∧ S.has (f' ++ [c]) ∧ R S k2 (f' ++ [c]) cs p ∧ k = k1 + k2 + 1 := by
  obtain ⟨m, k1, k2, h1, h2, rfl, h3⟩ := R.split (xs := []) h
  cases h2 with
  | down _ hh hr => exact ⟨m, k1, _, h1, hh, hr, by omega⟩
  | link hk _ => exact absurd h3 hk.isLink

/-! ### `fsGet` for the target of a link -/

/-- `Get` -/
abbrev Gc (cr : Bool) (n : Nat) : FS → Path → Str → Bool → Res (FS × Path) := fun S d c fl => get n S d c cr fl

/-- `Get` for reading -/
abbrev G (n : Nat) : FS → Path → Str → Bool → Res (FS × Path) := Gc false n

theorem get_up {cr : Bool} {n : Nat} {S : FS} {d : Path} {fl : Bool} :
    Gc cr (n + 1) S d "..".toList fl = if fl then resolve (fun S d l => fsGetWith (Gc cr n) S d l false) n S [] d.dropLast else some (.ok (S, d.dropLast)) := by
  show get (n + 1) S d "..".toList cr fl = _
  rw [get]
  simp only [if_true, bind_some_ok]

theorem get_dot {cr : Bool} {n : Nat} {S : FS} {d : Path} {fl : Bool} :
    Gc cr (n + 1) S d ".".toList fl = if fl then resolve (fun S d l => fsGetWith (Gc cr n) S d l false) n S [] d else some (.ok (S, d)) := by
  show get (n + 1) S d ".".toList cr fl = _
  rw [get]
  simp only
  rw [if_neg (by decide), if_pos trivial, bind_some_ok]

theorem walk_ups {cr : Bool} {n : Nat} {S : FS} {fl : Bool} {ns : List Str} (hne : ns ≠ []) : ∀ (j : Nat) (d : Path),
    walk (Gc cr (n + 1)) S d (List.replicate j "..".toList ++ ns) fl = walk (Gc cr (n + 1)) S (dropN j d) ns fl := by
  intro j
  induction j with
  | zero => intro d; rfl
  | succ j ih =>
    intro d
    rw [List.replicate_succ, List.cons_append, walk]
    · rw [get_up, if_neg (by simp), bind_some_ok]
      exact ih _
    · intro e; exact hne (List.append_eq_nil_iff.mp e).2

theorem walk_ups_nil {cr : Bool} {n : Nat} {S : FS} {fl : Bool} : ∀ (j : Nat) (d : Path), walk (Gc cr (n + 1)) S d (List.replicate (j + 1) "..".toList) fl =
    if fl then resolve (fun S d l => fsGetWith (Gc cr n) S d l false) n S [] (dropN (j + 1) d) else some (.ok (S, dropN (j + 1) d)) := by
  intro j
  induction j with
  | zero => intro d; exact get_up
  | succ j ih =>
    intro d
    rw [List.replicate_succ, walk]
    · rw [get_up, if_neg (by simp), bind_some_ok]
      exact ih _
    · simp

theorem fsGet_target {cr : Bool} {n : Nat} {S : FS} {f b : Path} {ns : List Str} {l : Str} {fl : Bool} (h : Lk S f b ns) (hl : S.link f = some l) :
    (ns ≠ [] → fsGetWith (Gc cr (n + 1)) S f.dropLast l fl = walk (Gc cr (n + 1)) S b ns fl) ∧
    (ns = [] → fsGetWith (Gc cr (n + 1)) S f.dropLast l fl =
      if fl then resolve (fun S d l => fsGetWith (Gc cr n) S d l false) n S [] b else some (.ok (S, b))) := by
  obtain ⟨l', j, h1, h2, h3, h4⟩ := h
  rw [hl] at h1
  injection h1 with h1
  subst h1
  obtain ⟨c1, c2, c3⟩ := clean_ups h2
  unfold fsGetWith
  simp only
  rw [c1]
  cases hr : isRooted l with
  | true =>
    rw [hr, if_pos rfl] at h3
    subst h3
    rw [if_pos rfl, c2 hr]
    exact ⟨fun hn => by rw [if_neg hn], fun hn => absurd hn (h4 hr)⟩
  | false =>
    rw [hr, if_neg (by simp)] at h3
    subst h3
    rw [if_neg (by simp), c3 hr]
    constructor
    · intro hn
      rw [if_neg (fun e => hn (List.append_eq_nil_iff.mp e).2), walk_ups hn]
    · intro hn
      subst hn
      cases j with
      | zero => exact get_dot
      | succ j => rw [List.append_nil, if_neg (by simp), walk_ups_nil]; rfl

theorem resolve_here {fg : FS → Path → Str → Res (FS × Path)} {k : Nat} {S : FS} {st : List Path} {f : Path} (h : S.link f = none) :
    resolve fg (k + 1) S st f = some (.ok (S, f)) := by rw [resolve, h]

/-! ### what the code finds is related -/

section
variable {b0 cr : Bool} {S : FS}

/-- `Get` at this fuel finds only what is related -/
def GetFwd (S : FS) (n : Nat) : Prop := ∀ f c fl S' r, S.has f → Plain c → G n S f c fl = some (.ok (S', r)) →
  S' = S ∧ ∃ f' j, R S j f [] f' ∧ S.has (f' ++ [c]) ∧ (fl = false → r = f' ++ [c]) ∧ (fl = true → ∃ i, R S i (f' ++ [c]) [] r)

theorem walk_fwd {n : Nat} (hg : GetFwd S n) : ∀ (ns : List Str) (f : Path) (fl : Bool) (S' : FS) (r : Path), ns ≠ [] → (∀ c ∈ ns, Plain c) →
    S.has f → walk (G n) S f ns fl = some (.ok (S', r)) →
    S' = S ∧ (fl = true → ∃ j, R S j f ns r) ∧ (fl = false → S.has r ∧ ∀ i p, R S i r [] p → ∃ j, R S j f ns p) := by
  intro ns
  induction ns with
  | nil => intro f fl S' r h; exact absurd rfl h
  | cons c cs ih =>
    intro f fl S' r _ hp hf h
    cases cs with
    | nil =>
      obtain ⟨rfl, f', j, h1, h2, h3, h4⟩ := hg f c fl S' r hf (hp c (by simp)) h
      refine ⟨rfl, ?_, ?_⟩
      · intro e
        obtain ⟨i, h5⟩ := h4 e
        exact ⟨_, R.append h1 (.down h1.end h2 h5)⟩
      · intro e
        rw [h3 e]
        exact ⟨h2, fun i p h5 => ⟨_, R.append h1 (.down h1.end h2 h5)⟩⟩
    | cons c2 cs =>
      rw [walk] at h
      · obtain ⟨x, e1, h⟩ := bind_ok.mp h
        obtain ⟨x1, x2⟩ := x
        obtain ⟨rfl, f', j, h1, h2, h3, _⟩ := hg f c false x1 x2 hf (hp c (by simp)) e1
        have h3 := h3 rfl
        subst h3
        obtain ⟨h4, h5, h6⟩ := ih (f' ++ [c]) fl S' r (by simp) (fun x hx => hp x (by simp [hx])) h2 h
        refine ⟨h4, ?_, ?_⟩
        · intro e
          obtain ⟨i, h7⟩ := h5 e
          exact ⟨_, R.append h1 (.down h1.end h2 h7)⟩
        · intro e
          obtain ⟨h7, h8⟩ := h6 e
          refine ⟨h7, fun i p h9 => ?_⟩
          obtain ⟨k, h10⟩ := h8 i p h9
          exact ⟨_, R.append h1 (.down h1.end h2 h10)⟩
      · simp

theorem target_fwd (hi : Inv b0 S) (hs : StraightLinks S) {n : Nat} (hg : GetFwd S n) {f : Path} {l : Str} {fl : Bool} {S' : FS} {r : Path}
    (hl : S.link f = some l) (h : fsGetWith (G n) S f.dropLast l fl = some (.ok (S', r))) :
    S' = S ∧ (fl = true → ∃ j, R S j f [] r) ∧ (fl = false → S.has r ∧ ∀ i p, R S i r [] p → ∃ j, R S j f [] p) := by
  obtain ⟨hne, b, ns, hk⟩ := hs f l hl
  obtain ⟨b1, b2, b3⟩ := hk.base hi hne
  cases n with
  | zero =>
    exfalso
    have : ∀ (cs : List Str) d, cs ≠ [] → walk (G 0) S d cs fl = none := by
      intro cs d hc
      match cs, hc with
      | [c], _ => rfl
      | c :: c2 :: cs, _ =>
        rw [walk]
        · rfl
        · simp
    unfold fsGetWith at h
    simp only at h
    split at h
    · rw [this _ _ (split_ne_nil _ _)] at h; cases h
    · rw [this _ _ (split_ne_nil _ _)] at h; cases h
  | succ n =>
    obtain ⟨t1, t2⟩ := fsGet_target (n := n) (fl := fl) hk hl
    by_cases hn : ns = []
    · rw [t2 hn] at h
      have h' : S' = S ∧ r = b := by
        cases fl with
        | false =>
          simp only [Bool.false_eq_true, if_false, Option.some.injEq, Except.ok.injEq, Prod.mk.injEq] at h
          exact ⟨h.1.symm, h.2.symm⟩
        | true =>
          rw [if_pos rfl] at h
          cases n with
          | zero => cases h
          | succ n =>
            rw [resolve_here b3] at h
            simp only [Option.some.injEq, Except.ok.injEq, Prod.mk.injEq] at h
            exact ⟨h.1.symm, h.2.symm⟩
      obtain ⟨rfl, rfl⟩ := h'
      have hr : ∀ {i p}, R S' i r [] p → ∃ j, R S' j f [] p := fun h => ⟨_, .link hk (by rw [hn]; exact h)⟩
      exact ⟨rfl, fun _ => hr (.done b3), fun _ => ⟨b1, fun i p h => hr h⟩⟩
    · rw [t1 hn] at h
      obtain ⟨h1, h2, h3⟩ := walk_fwd hg ns b fl S' r hn hk.plain b1 h
      refine ⟨h1, ?_, ?_⟩
      · intro e
        obtain ⟨j, h4⟩ := h2 e
        exact ⟨_, .link hk (by simpa using h4)⟩
      · intro e
        obtain ⟨h4, h5⟩ := h3 e
        refine ⟨h4, fun i p h6 => ?_⟩
        obtain ⟨j, h7⟩ := h5 i p h6
        exact ⟨_, .link hk (by simpa using h7)⟩

theorem resolve_fwd (hi : Inv b0 S) (hs : StraightLinks S) {n : Nat} (hg : GetFwd S n) : ∀ (k : Nat) (st : List Path) (f : Path) (S' : FS) (p : Path), S.has f →
    resolve (fun S d l => fsGetWith (G n) S d l false) k S st f = some (.ok (S', p)) → S' = S ∧ ∃ j, R S j f [] p := by
  intro k
  induction k with
  | zero => intro st f S' p _ h; cases h
  | succ k ih =>
    intro st f S' p hf h
    rw [resolve] at h
    cases hl : S.link f with
    | none =>
      rw [hl] at h
      simp only [Option.some.injEq, Except.ok.injEq, Prod.mk.injEq] at h
      obtain ⟨rfl, rfl⟩ := h
      exact ⟨rfl, 0, .done hl⟩
    | some l =>
      rw [hl] at h
      simp only at h
      split at h
      · cases h
      · obtain ⟨x, e1, h'⟩ := bind_ok.mp h
        clear h
        obtain ⟨x1, x2⟩ := x
        obtain ⟨rfl, _, h3⟩ := target_fwd hi hs hg hl e1
        obtain ⟨h4, h5⟩ := h3 rfl
        obtain ⟨rfl, j, h6⟩ := ih _ x2 S' p h4 h'
        exact ⟨rfl, h5 j p h6⟩

theorem get_fwd (hi : Inv b0 S) (hs : StraightLinks S) : ∀ n, GetFwd S n := by
  intro n
  induction n with
  | zero => intro f c fl S' r _ _ h; cases h
  | succ n ih =>
    intro f c fl S' r hf hc h
    have h : get (n + 1) S f c false fl = some (.ok (S', r)) := h
    rw [get] at h
    simp only at h
    rw [if_neg (show ¬ c = "..".toList from hc.2.2.1), if_neg (show ¬ c = ".".toList from hc.2.1)] at h
    obtain ⟨⟨x1, x2⟩, e1, h'⟩ := bind_ok.mp h
    clear h
    obtain ⟨⟨y1, y2⟩, e2, e1'⟩ := bind_ok.mp e1
    clear e1
    have he : y1 = S ∧ ∃ j, R S j f [] y2 := by
      unfold enter at e2
      cases hl : S.link f with
      | none =>
        rw [hl] at e2
        simp only [Option.some.injEq, Except.ok.injEq, Prod.mk.injEq] at e2
        obtain ⟨rfl, rfl⟩ := e2
        exact ⟨rfl, 0, .done hl⟩
      | some l =>
        rw [hl] at e2
        obtain ⟨h1, h2, _⟩ := target_fwd hi hs ih (fl := true) hl e2
        exact ⟨h1, h2 rfl⟩
    obtain ⟨rfl, j, hr⟩ := he
    obtain ⟨z, e3, e1⟩ := bind_ok.mp e1'
    clear e1'
    have hz : z = (y1 : FS) := by
      rcases makeDir_fine (g := fun S f => get n S f opqName true true) (S := y1) (f := y2) with e | e
      · rw [e] at e3; cases e3
      · rw [e] at e3
        injection e3 with e3; injection e3 with e3; exact e3.symm
    subst hz
    have hx : x1 = z ∧ x2 = y2 ++ [c] ∧ z.has (y2 ++ [c]) := by
      unfold child at e1
      cases hg : z.get? (y2 ++ [c]) with
      | none => rw [hg] at e1; cases e1
      | some nd =>
        rw [hg] at e1
        simp only [Option.some.injEq, Except.ok.injEq, Prod.mk.injEq] at e1
        exact ⟨e1.1.symm, e1.2.symm, has_of hg⟩
    obtain ⟨rfl, rfl, hh⟩ := hx
    cases fl with
    | false =>
      simp only [Bool.false_eq_true, if_false, Option.some.injEq, Except.ok.injEq, Prod.mk.injEq] at h'
      exact ⟨h'.1.symm, y2, j, hr, hh, fun _ => h'.2.symm, fun e => (nomatch e)⟩
    | true =>
      rw [if_pos rfl] at h'
      obtain ⟨h1, h2⟩ := resolve_fwd hi hs ih _ _ _ _ _ hh h'
      exact ⟨h1, y2, j, hr, hh, fun e => (nomatch e), fun _ => h2⟩


/-! ### what is related is found -/

/-- a node is followed: as a directory to look into, and to its end -/
def FollowOk (cr : Bool) (S : FS) (k : Nat) : Prop := ∀ f p, S.has f → R S k f [] p → ∃ n0, ∀ n, n0 ≤ n →
  enter (fun S d l => fsGetWith (Gc cr n) S d l true) S f = some (.ok (S, p)) ∧
  ∀ m, n0 ≤ m → ∀ st, (∀ s ∈ st, ∃ k', k < k' ∧ R S k' s [] p) → resolve (fun S d l => fsGetWith (Gc cr n) S d l false) m S st f = some (.ok (S, p))

/-- names are walked along -/
def WalkOk (cr : Bool) (S : FS) (k : Nat) : Prop := ∀ f ns p, ns ≠ [] → (∀ c ∈ ns, Plain c) → S.has f → R S k f ns p → ∃ n0 r k2,
  S.has r ∧ k2 < k ∧ R S k2 r [] p ∧ ∀ n, n0 ≤ n → walk (Gc cr n) S f ns true = some (.ok (S, p)) ∧ walk (Gc cr n) S f ns false = some (.ok (S, r))

theorem has_dir (hi : Inv b0 S) {f : Path} {c : Str} (h : S.has (f ++ [c])) : S.has f ∧ S.nonDir f = false ∧ S.link f = none :=
  dir_above hi h (by simp) (by rw [List.dropLast_concat]; exact List.prefix_refl _)

theorem get_bwd (hi : Inv b0 S) {k1 : Nat} (h1 : FollowOk cr S k1) {f f' : Path} {c : Str} (hf : S.has f) (hc : Plain c) (hr : R S k1 f [] f') (hh : S.has (f' ++ [c])) :
    (∃ n0, ∀ n, n0 ≤ n → Gc cr n S f c false = some (.ok (S, f' ++ [c]))) ∧
    ∀ k2 p, FollowOk cr S k2 → R S k2 (f' ++ [c]) [] p → ∃ n0, ∀ n, n0 ≤ n → Gc cr n S f c true = some (.ok (S, p)) := by
  obtain ⟨n1, h1⟩ := h1 f f' hf hr
  have key : ∀ n fl, n1 ≤ n → Gc cr (n + 1) S f c fl =
      if fl then resolve (fun S d l => fsGetWith (Gc cr n) S d l false) n S [] (f' ++ [c]) else some (.ok (S, f' ++ [c])) := by
    intro n fl hn
    show get (n + 1) S f c cr fl = _
    rw [get]
    simp only
    rw [if_neg (show ¬ c = "..".toList from hc.2.2.1), if_neg (show ¬ c = ".".toList from hc.2.1), (h1 n hn).1, bind_some_ok]
    simp only
    rw [makeDir_dir (has_dir hi hh).2.1, bind_some_ok, child_old hh, bind_some_ok]
  constructor
  · refine ⟨n1 + 1, fun n hn => ?_⟩
    obtain ⟨m, rfl⟩ : ∃ m, n = m + 1 := ⟨n - 1, by omega⟩
    rw [key m false (by omega), if_neg (by simp)]
  · intro k2 p h2 hp
    obtain ⟨n2, h2⟩ := h2 _ _ hh hp
    refine ⟨n1 + n2 + 1, fun n hn => ?_⟩
    obtain ⟨m, rfl⟩ : ∃ m, n = m + 1 := ⟨n - 1, by omega⟩
    rw [key m true (by omega), if_pos rfl]
    exact (h2 m (by omega)).2 m (by omega) [] (by simp)

theorem walk_bwd (hi : Inv b0 S) : ∀ (ns : List Str) (k : Nat), (∀ k' < k, FollowOk cr S k') → ∀ f p, ns ≠ [] → (∀ c ∈ ns, Plain c) → S.has f → R S k f ns p → ∃ n0 r k2,
    S.has r ∧ k2 < k ∧ R S k2 r [] p ∧ ∀ n, n0 ≤ n → walk (Gc cr n) S f ns true = some (.ok (S, p)) ∧ walk (Gc cr n) S f ns false = some (.ok (S, r)) := by
  intro ns
  induction ns with
  | nil => intro k _ f p h; exact absurd rfl h
  | cons c cs ih =>
    intro k hk f p _ hp hf hr
    obtain ⟨f', k1, k2, h1, h2, h3, rfl⟩ := hr.cons
    obtain ⟨⟨n1, g1⟩, g2⟩ := get_bwd hi (hk k1 (by omega)) hf (hp c (by simp)) h1 h2
    cases cs with
    | nil =>
      obtain ⟨n2, g2⟩ := g2 k2 p (hk k2 (by omega)) h3
      refine ⟨n1 + n2, f' ++ [c], k2, h2, by omega, h3, fun n hn => ⟨g2 n (by omega), g1 n (by omega)⟩⟩
    | cons c2 cs =>
      obtain ⟨n2, r, k3, w1, w2, w3, w4⟩ := ih k2 (fun k' h => hk k' (by omega)) (f' ++ [c]) p (by simp) (fun x hx => hp x (by simp [hx])) h2 h3
      refine ⟨n1 + n2, r, k3, w1, by omega, w3, fun n hn => ?_⟩
      obtain ⟨w5, w6⟩ := w4 n (by omega)
      constructor
      · rw [walk]
        · rw [g1 n (by omega), bind_some_ok]; exact w5
        · simp
      · rw [walk]
        · rw [g1 n (by omega), bind_some_ok]; exact w6
        · simp

theorem follow_bwd (hi : Inv b0 S) (hs : StraightLinks S) : ∀ k, FollowOk cr S k := by
  intro k
  induction k using Nat.strongRecOn with
  | ind k ih =>
    intro f p hf hr
    cases hr with
    | done hl => exact ⟨1, fun n hn => ⟨enter_dir hl, fun m hm st _ => by
        obtain ⟨m, rfl⟩ : ∃ j, m = j + 1 := ⟨m - 1, by omega⟩
        exact resolve_here hl⟩⟩
    | @link k _ b ns _ _ hk hr' =>
      have hrf : R S (k + 1) f [] p := .link hk hr'
      rw [List.append_nil] at hr'
      obtain ⟨l, hl⟩ : ∃ l, S.link f = some l := by
        cases e : S.link f with
        | none => exact absurd e hk.isLink
        | some l => exact ⟨l, rfl⟩
      obtain ⟨hne, _⟩ := hs f l hl
      obtain ⟨b1, b2, b3⟩ := hk.base hi hne
      -- the target, without following its end, and the rest
      have key : ∃ n0 r k2, S.has r ∧ k2 < k + 1 ∧ R S k2 r [] p ∧ ∀ n, n0 ≤ n →
          fsGetWith (Gc cr n) S f.dropLast l true = some (.ok (S, p)) ∧ fsGetWith (Gc cr n) S f.dropLast l false = some (.ok (S, r)) := by
        by_cases hn : ns = []
        · subst hn
          have hp : b = p := by
            cases hr' with
            | done _ => rfl
            | link hk' _ => exact absurd b3 hk'.isLink
          subst hp
          refine ⟨2, b, 0, b1, by omega, .done b3, fun n hn => ?_⟩
          obtain ⟨m, rfl⟩ : ∃ m, n = m + 2 := ⟨n - 2, by omega⟩
          rw [(fsGet_target hk hl).2 rfl, (fsGet_target hk hl).2 rfl]
          exact ⟨by rw [if_pos rfl, resolve_here b3], by rw [if_neg (by simp)]⟩
        · obtain ⟨n0, r, k2, w1, w2, w3, w4⟩ := walk_bwd hi ns k (fun k' h => ih k' (by omega)) b p hn hk.plain b1 hr'
          refine ⟨n0 + 1, r, k2, w1, by omega, w3, fun n hn' => ?_⟩
          obtain ⟨w5, w6⟩ := w4 n (by omega)
          obtain ⟨m, rfl⟩ : ∃ m, n = m + 1 := ⟨n - 1, by omega⟩
          rw [(fsGet_target hk hl).1 hn, (fsGet_target hk hl).1 hn]
          exact ⟨w5, w6⟩
      obtain ⟨n0, r, k2, h1, h2, h3, h4⟩ := key
      obtain ⟨n1, h5⟩ := ih k2 h2 r p h1 h3
      refine ⟨n0 + n1 + 1, fun n hn => ⟨?_, ?_⟩⟩
      · unfold enter
        rw [hl]
        exact (h4 n (by omega)).1
      · intro m hm st hst
        obtain ⟨m, rfl⟩ : ∃ j, m = j + 1 := ⟨m - 1, by omega⟩
        rw [resolve, hl]
        simp only
        rw [if_neg]
        · rw [(h4 n (by omega)).2, bind_some_ok]
          refine (h5 n (by omega)).2 m (by omega) (f :: st) ?_
          intro s hs
          rcases List.mem_cons.mp hs with rfl | hs
          · exact ⟨_, h2, hrf⟩
          · obtain ⟨k', h6, h7⟩ := hst s hs
            exact ⟨k', by omega, h7⟩
        · intro hm
          obtain ⟨k', h6, h7⟩ := hst f hm
          have := (h7.unique hrf).1
          omega

end

end Squash
