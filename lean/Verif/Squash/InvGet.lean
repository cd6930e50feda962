import Verif.Squash.Inv
/-! `Get`, `fsGet`, `Set` and loading keep the invariant. -/
namespace Squash
open Go

theorem link_none_of_dir {S : FS} {f : Path} (h : S.nonDir f = false) : S.link f = none := by
  unfold FS.nonDir at h
  unfold FS.link
  cases e : S.get? f with
  | none => rfl
  | some n =>
    rw [e] at h
    simp only [Node.nonDir] at h
    simp only [Node.link]
    cases hh : n.header with
    | none => rfl
    | some hd =>
      rw [hh] at h
      simp only [ne_eq, decide_not, Bool.not_eq_eq_eq_not, Bool.not_false, decide_eq_true_eq] at h
      simp only [h]
      rfl

theorem bind_ok {α β : Type} {x : Res α} {f : α → Res β} {b : β} :
    x.bind f = some (.ok b) ↔ ∃ a, x = some (.ok a) ∧ f a = some (.ok b) := by
  unfold Res.bind
  match x with
  | none => simp
  | some (.error e) => simp
  | some (.ok a) => simp

@[simp] theorem bind_some_ok {α β : Type} (a : α) (f : α → Res β) : Res.bind (some (.ok a)) f = f a := rfl

theorem enter_dir {fg : FS → Path → Str → Res (FS × Path)} {S : FS} {f : Path} (h : S.link f = none) :
    enter fg S f = some (.ok (S, f)) := by unfold enter; rw [h]

theorem makeDir_dir {g : FS → Path → Res (FS × Path)} {S : FS} {f : Path} {create : Bool} (h : S.nonDir f = false) :
    makeDir g create S f = some (.ok S) := by unfold makeDir; rw [h]; rfl

theorem child_new {S : FS} {f : Path} {c : Str} (h : S.get? (f ++ [c]) = none) :
    child true S f c = some (.ok (S.put (f ++ [c]) ⟨none, []⟩, f ++ [c])) := by unfold child; rw [h]; rfl

theorem child_old {S : FS} {f : Path} {c : Str} {create : Bool} (h : S.has (f ++ [c])) :
    child create S f c = some (.ok (S, f ++ [c])) := by
  unfold child
  unfold FS.has at h
  cases e : S.get? (f ++ [c]) with
  | none => rw [e] at h; simp at h
  | some n => rfl

/-- `Get` in a directory -/
theorem get_dir {n : Nat} {S : FS} {f : Path} {c : Str} {create follow : Bool} (hd : S.nonDir f = false)
    (h1 : c ≠ "..".toList) (h2 : c ≠ ".".toList) :
    get (n + 1) S f c create follow = (child create S f c).bind fun x =>
      if follow then resolve (fun S d l => fsGetWith (fun S d c fl => get n S d c create fl) S d l false) n x.1 [] x.2
      else some (.ok x) := by
  rw [get]
  simp only
  rw [if_neg h1, if_neg h2, enter_dir (link_none_of_dir hd)]
  simp only [bind_some_ok, makeDir_dir hd]

theorem resolve_nolink {fg : FS → Path → Str → Res (FS × Path)} {k : Nat} {S : FS} {st : List Path} {f : Path}
    (h : S.link f = none) : resolve fg (k + 1) S st f = some (.ok (S, f)) := by rw [resolve, h]

/-- looking up the opaque marker of a directory that has no children -/
theorem get_opq {S : FS} {f : Path} (hd : S.nonDir f = false) (hc : ∀ c, S.get? (f ++ [c]) = none) (k : Nat) :
    get (k + 2) S f opqName true true = some (.ok (S.put (f ++ [opqName]) ⟨none, []⟩, f ++ [opqName])) := by
  rw [get_dir hd (by decide) (by decide), child_new (hc _), bind_some_ok, if_pos rfl, resolve_nolink]
  unfold FS.link; rw [get?_put, if_pos rfl]; rfl

theorem get_opq_none {S : FS} {f : Path} (hd : S.nonDir f = false) (hc : ∀ c, S.get? (f ++ [c]) = none) :
    get 1 S f opqName true true = none := by
  rw [get_dir hd (by decide) (by decide), child_new (hc _), bind_some_ok, if_pos rfl, resolve]

theorem get_opq_cases {S : FS} {f : Path} (hd : S.nonDir f = false) (hc : ∀ c, S.get? (f ++ [c]) = none) (n : Nat) :
    get n S f opqName true true = none ∨
    get n S f opqName true true = some (.ok (S.put (f ++ [opqName]) ⟨none, []⟩, f ++ [opqName])) := by
  match n with
  | 0 => left; rfl
  | 1 => left; exact get_opq_none hd hc
  | k + 2 => right; exact get_opq hd hc k

/-- the state after the opaque marker has been set -/
theorem get?_opq {S : FS} {f : Path} (hk : ∀ c ∈ f, GoodKey c) (hno : ∀ q, f <+: q → q ≠ f → S.get? q = none) (q : Path) :
    (setFile (S.put (f ++ [opqName]) ⟨none, []⟩) (f ++ [opqName]) opqHeader []).get? q =
      if q = f ++ [opqName] then some ⟨some opqHeader, []⟩ else S.get? q := by
  unfold setFile
  rw [get?_unmark hk plain_opq, if_pos (by decide), if_pos rfl, get?_delBelow, get?_put, get?_put]
  by_cases e : q = f ++ [opqName]
  · subst e
    rw [if_neg (fun h => h.2.2 (List.prefix_refl _)), if_neg (by simp), if_pos rfl, if_pos rfl]
  · rw [if_neg e, if_neg e, if_neg e]
    split
    · rename_i h; rw [hno q h.1 h.2.1]
    · split
      · rename_i h; rw [hno q ((List.prefix_append _ _).trans h.1)]
        intro e2
        have := h.1.length_le
        rw [e2, List.length_append, List.length_singleton] at this; omega
      · rfl

theorem entryOK_opq (b : Bool) (f : Path) : EntryOK b (f ++ [opqName]) opqHeader :=
  ⟨.inr ⟨f, opqName, rfl, plain_opq, .inl (by decide)⟩, fun _ h => absurd h (by decide)⟩

theorem Inv.opq {b : Bool} {S : FS} {f : Path} (h : Inv b S) (hf : S.has f) (hd : S.nonDir f = false)
    (hc : ∀ c, S.get? (f ++ [c]) = none) :
    Inv b (Squash.setFile (S.put (f ++ [opqName]) ⟨none, []⟩) (f ++ [opqName]) opqHeader []) := by
  have h1 := h.child (c := opqName) hf hd (hc _) (plainGood plain_opq) (fun _ => by decide)
  refine h1.setFile ?_ [] (entryOK_opq b f)
  unfold FS.has; rw [get?_put, if_pos rfl]; rfl

/-- making room below a node that is not a directory, vfs.go:93-104 -/
theorem get?_clear {S : FS} {f : Path} {b : Bool} (h : Inv b S) (hf : S.has f) (hd : S.nonDir f = true) (q : Path) :
    (setFile ((S.put f ⟨none, []⟩).put (f ++ [opqName]) ⟨none, []⟩) (f ++ [opqName]) opqHeader []).get? q =
      if q = f ++ [opqName] then some ⟨some opqHeader, []⟩ else if q = f then some ⟨none, []⟩ else S.get? q := by
  rw [get?_opq (fun c hc => (h.keys f hf c hc).1), get?_put]
  intro q h1 h2
  rw [get?_put, if_neg h2, h.noDesc (h.leaf f hd) h1 h2]

theorem Inv.clear {b : Bool} {S : FS} {f : Path} (h : Inv b S) (hf : S.has f) (hd : S.nonDir f = true) :
    Inv b (Squash.setFile ((S.put f ⟨none, []⟩).put (f ++ [opqName]) ⟨none, []⟩) (f ++ [opqName]) opqHeader []) := by
  have h1 : Inv b (S.put f ⟨none, []⟩) :=
    h.put hf _ (fun hn => by simp [Node.nonDir] at hn) (fun _ l hl => by simp [Node.link] at hl)
      (fun _ _ _ _ e => by simp at e)
  refine h1.opq ?_ ?_ ?_
  · unfold FS.has; rw [get?_put, if_pos rfl]; rfl
  · unfold FS.nonDir; rw [get?_put, if_pos rfl]; rfl
  · intro c; rw [get?_put, if_neg (by simp)]; exact h.leaf f hd c

/-! ### lookups -/

/-- what holds of state and node during a lookup that started in state `S₀` -/
structure Step (b create : Bool) (S₀ S : FS) (p : Path) : Prop where
  inv : Inv b S
  has : S.has p
  mono : ∀ q, S₀.has q → S.has q
  same : create = false → S = S₀

theorem walk_pres {g : FS → Path → Str → Bool → Res (FS × Path)} {P : FS → Path → Prop} {E : Str → Prop}
    (hg : ∀ S d c fl S' r, P S d → E c → g S d c fl = some (.ok (S', r)) → P S' r) :
    ∀ (cs : List Str) S d fl S' r, P S d → (∀ c ∈ cs, E c) → walk g S d cs fl = some (.ok (S', r)) → P S' r := by
  intro cs
  induction cs with
  | nil =>
    intro S d fl S' r hp _ h
    simp only [walk, Option.some.injEq, Except.ok.injEq, Prod.mk.injEq] at h
    rw [← h.1, ← h.2]; exact hp
  | cons c cs ih =>
    intro S d fl S' r hp he h
    cases cs with
    | nil => exact hg S d c fl S' r hp (he c (by simp)) h
    | cons c2 cs =>
      rw [walk] at h
      · obtain ⟨y, e, h⟩ := bind_ok.mp h
        exact ih _ _ _ _ _ (hg S d c false _ _ hp (he c (by simp)) e) (fun x hx => he x (by simp [hx])) h
      · simp

theorem resolve_pres {fg : FS → Path → Str → Res (FS × Path)} {P : FS → Path → Prop}
    (hfg : ∀ S ret l S' t, P S ret → S.link ret = some l → fg S ret.dropLast l = some (.ok (S', t)) → P S' t) :
    ∀ (k : Nat) S stack ret S' r, P S ret → resolve fg k S stack ret = some (.ok (S', r)) → P S' r ∧ S'.link r = none := by
  intro k
  induction k with
  | zero => intro S stack ret S' r _ h; simp [resolve] at h
  | succ k ih =>
    intro S stack ret S' r hp h
    rw [resolve] at h
    cases e : S.link ret with
    | none =>
      rw [e] at h
      simp only [Option.some.injEq, Except.ok.injEq, Prod.mk.injEq] at h
      rw [← h.1, ← h.2]; exact ⟨hp, e⟩
    | some l =>
      rw [e] at h
      simp only at h
      split at h
      · simp at h
      · obtain ⟨y, e2, h⟩ := bind_ok.mp h
        exact ih _ _ _ _ _ (hfg _ _ _ _ _ hp e e2) h

/-- elements of a cleaned path -/
theorem split_clean (s : Str) :
    ∃ cs, CleanElems (isRooted s) cs ∧ isRooted (clean s) = isRooted s ∧ clean s = render (isRooted s) cs ∧
      (isRooted s = true → split '/' ((clean s).drop 1) = if cs = [] then [[]] else cs) ∧
      (isRooted s = false → split '/' (clean s) = if cs = [] then [['.']] else cs) := by
  obtain ⟨cs, h, e⟩ := clean_shape s
  refine ⟨cs, h, ?_, e, ?_, ?_⟩
  · rw [e]; exact isRooted_render (fun c hc => ⟨(h.elem c hc).1, (h.elem c hc).2.2⟩)
  · intro hr
    rw [e, hr]
    have := split_render (rooted := false) (cs := cs) (fun c hc => (h.elem c hc).2.2)
    simp only [render, Bool.false_eq_true, if_false] at this
    simp only [render, if_true, List.drop_succ_cons, List.drop_zero]
    by_cases hcs : cs = []
    · subst hcs; rfl
    · rw [if_neg hcs] at this; rw [if_neg hcs, this, if_neg hcs]
  · intro hr
    rw [e, hr, split_render (fun c hc => (h.elem c hc).2.2)]
    simp

/-- the elements given to `Get` by `fsGet` -/
def ElemOK (b : Bool) (c : Str) : Prop := '/' ∉ c ∧ (b = true → c ≠ [])

theorem fsGetWith_pres {g : FS → Path → Str → Bool → Res (FS × Path)} {b : Bool} {P : FS → Path → Prop}
    (hg : ∀ S d c fl S' r, P S d → ElemOK b c → g S d c fl = some (.ok (S', r)) → P S' r)
    (hroot : ∀ S d, P S d → P S []) {S : FS} {d : Path} {l : Str} {fl : Bool} {S' : FS} {r : Path}
    (hl : b = true → clean l ≠ ['/']) (hp : P S d) (h : fsGetWith g S d l fl = some (.ok (S', r))) : P S' r := by
  obtain ⟨cs, hcs, hr, ec, h1, h2⟩ := split_clean l
  unfold fsGetWith at h
  simp only at h
  rw [hr] at h
  cases hroot' : isRooted l with
  | true =>
    rw [hroot', if_pos rfl, h1 hroot'] at h
    refine walk_pres (E := ElemOK b) hg _ _ _ _ _ _ (hroot _ _ hp) ?_ h
    intro c hc
    split at hc
    · rename_i e0
      rw [List.mem_singleton.mp hc]
      refine ⟨by simp, fun hb => ?_⟩
      have := hl hb
      rw [ec, hroot', e0] at this
      exact absurd rfl this
    · exact ⟨(hcs.elem c hc).2.2, fun _ => (hcs.elem c hc).1⟩
  | false =>
    rw [hroot', if_neg (by simp), h2 hroot'] at h
    refine walk_pres (E := ElemOK b) hg _ _ _ _ _ _ hp ?_ h
    intro c hc
    split at hc
    · rw [List.mem_singleton.mp hc]; exact ⟨by decide, fun _ => by decide⟩
    · exact ⟨(hcs.elem c hc).2.2, fun _ => (hcs.elem c hc).1⟩

theorem Step.root {b create : Bool} {S₀ S : FS} {p : Path} (h : Step b create S₀ S p) : Step b create S₀ S [] :=
  ⟨h.inv, h.inv.root, h.mono, h.same⟩

theorem Step.up {b create : Bool} {S₀ S : FS} {p : Path} (h : Step b create S₀ S p) : Step b create S₀ S p.dropLast :=
  ⟨h.inv, h.inv.dropLast h.has, h.mono, h.same⟩

theorem makeDir_pres {b create : Bool} {n : Nat} {S₀ S : FS} {f : Path} {S' : FS} (hs : Step b create S₀ S f)
    (h : makeDir (fun S f => get n S f opqName true true) create S f = some (.ok S')) :
    Step b create S₀ S' f ∧ S'.nonDir f = false := by
  unfold makeDir at h
  cases hn : S.nonDir f with
  | false =>
    rw [hn, if_neg (by simp)] at h
    simp only [Option.some.injEq, Except.ok.injEq] at h
    rw [← h]; exact ⟨hs, hn⟩
  | true =>
    rw [hn, if_pos rfl] at h
    cases create with
    | false => simp at h
    | true =>
      simp only [Bool.not_true, Bool.false_eq_true, if_false] at h
      have e1 : (S.put f ⟨none, []⟩).nonDir f = false := by
        unfold FS.nonDir; rw [get?_put, if_pos rfl]; rfl
      have e2 : ∀ c, (S.put f ⟨none, []⟩).get? (f ++ [c]) = none := by
        intro c; rw [get?_put, if_neg (by simp)]; exact hs.inv.leaf f hn c
      rcases get_opq_cases e1 e2 n with e | e
      · rw [e] at h; simp [Res.bind] at h
      · rw [e] at h
        simp only [bind_some_ok, Option.some.injEq, Except.ok.injEq] at h
        subst h
        have hg := get?_clear hs.inv hs.has hn
        have hhas : ∀ q, S.has q → (setFile ((S.put f ⟨none, []⟩).put (f ++ [opqName]) ⟨none, []⟩)
            (f ++ [opqName]) opqHeader []).has q := by
          intro q hq
          unfold FS.has
          rw [hg]
          split
          · rfl
          · split
            · rfl
            · exact hq
        refine ⟨⟨hs.inv.clear hs.has hn, hhas _ hs.has, fun q hq => hhas q (hs.mono q hq), by simp⟩, ?_⟩
        unfold FS.nonDir
        rw [hg, if_neg (by simp), if_pos rfl]; rfl

theorem child_pres {b create : Bool} {S₀ S : FS} {f : Path} {c : Str} {S' : FS} {r : Path} (hs : Step b create S₀ S f)
    (hn : S.nonDir f = false) (hg : GoodKey c) (hb : b = true → c ≠ []) (h : child create S f c = some (.ok (S', r))) :
    Step b create S₀ S' r ∧ r = f ++ [c] := by
  unfold child at h
  cases hk : S.get? (f ++ [c]) with
  | some nd =>
    rw [hk] at h
    simp only [Option.some.injEq, Except.ok.injEq, Prod.mk.injEq] at h
    rw [← h.1, ← h.2]; exact ⟨⟨hs.inv, has_of hk, hs.mono, hs.same⟩, rfl⟩
  | none =>
    rw [hk] at h
    cases create with
    | false => simp at h
    | true =>
      simp only [if_true, Option.some.injEq, Except.ok.injEq, Prod.mk.injEq] at h
      rw [← h.1, ← h.2]
      refine ⟨⟨hs.inv.child hs.has hn hk hg hb, ?_, ?_, by simp⟩, rfl⟩
      · unfold FS.has; rw [get?_put, if_pos rfl]; rfl
      · intro q hq
        unfold FS.has
        rw [get?_put]
        split
        · rfl
        · exact hs.mono q hq

/-- `Get` keeps the invariant, deletes no node, changes nothing unless `create`; when following links it does not return
a symlink, and otherwise the node has the wanted name -/
theorem get_pres {b : Bool} (n : Nat) : ∀ (S₀ S : FS) (f : Path) (c : Str) (create follow : Bool) (S' : FS) (r : Path),
    Step b create S₀ S f → ElemOK b c → get n S f c create follow = some (.ok (S', r)) →
    Step b create S₀ S' r ∧ (follow = true → S'.link r = none) ∧ (follow = false → Plain c → ∃ p, r = p ++ [c]) := by
  induction n with
  | zero => intro S₀ S f c create follow S' r _ _ h; simp [get] at h
  | succ n ih =>
    intro S₀ S f c create follow S' r hs hc h
    have hfs : ∀ (fl : Bool) S d l S' r, Step b create S₀ S d → (b = true → clean l ≠ ['/']) →
        fsGetWith (fun S d c fl => get n S d c create fl) S d l fl = some (.ok (S', r)) → Step b create S₀ S' r := by
      intro fl S d l S' r hp hl h
      exact fsGetWith_pres (P := Step b create S₀) (fun S d c fl S' r h1 h2 h3 => (ih S₀ S d c create fl S' r h1 h2 h3).1)
        (fun _ _ h => h.root) hl hp h
    have hfin : ∀ S ret, Step b create S₀ S ret →
        (if follow then resolve (fun S d l => fsGetWith (fun S d c fl => get n S d c create fl) S d l false) n S [] ret
          else some (.ok (S, ret))) = some (.ok (S', r)) →
        Step b create S₀ S' r ∧ (follow = true → S'.link r = none) ∧ (follow = false → r = ret) := by
      intro S ret hp h
      cases follow with
      | true =>
        rw [if_pos rfl] at h
        have := resolve_pres (P := Step b create S₀) (fun S ret l S' t h1 h2 h3 =>
          hfs false _ _ _ _ _ h1.up (fun hb => h1.inv.links hb ret l h2) h3) _ _ _ _ _ _ hp h
        exact ⟨this.1, fun _ => this.2, by simp⟩
      | false =>
        rw [if_neg (by simp)] at h
        simp only [Option.some.injEq, Except.ok.injEq, Prod.mk.injEq] at h
        rw [← h.1, ← h.2]; exact ⟨hp, fun h => absurd h (by simp), fun _ => rfl⟩
    rw [get] at h
    obtain ⟨⟨S1, r1⟩, h1, h2⟩ := bind_ok.mp h
    have key : Step b create S₀ S1 r1 ∧ (Plain c → ∃ p, r1 = p ++ [c]) := by
      split at h1
      · rename_i e
        simp only [Option.some.injEq, Except.ok.injEq, Prod.mk.injEq] at h1
        rw [← h1.1, ← h1.2]; exact ⟨hs.up, fun hp => absurd e hp.2.2.1⟩
      · split at h1
        · rename_i e
          simp only [Option.some.injEq, Except.ok.injEq, Prod.mk.injEq] at h1
          rw [← h1.1, ← h1.2]; exact ⟨hs, fun hp => absurd e hp.2.1⟩
        · rename_i hdd hd
          obtain ⟨⟨S2, f2⟩, h3, h4⟩ := bind_ok.mp h1
          obtain ⟨S3, h5, h6⟩ := bind_ok.mp h4
          have hs2 : Step b create S₀ S2 f2 := by
            unfold enter at h3
            cases e : S.link f with
            | none =>
              rw [e] at h3
              simp only [Option.some.injEq, Except.ok.injEq, Prod.mk.injEq] at h3
              rw [← h3.1, ← h3.2]; exact hs
            | some l =>
              rw [e] at h3
              exact hfs true _ _ _ _ _ hs.up (fun hb => hs.inv.links hb f l e) h3
          obtain ⟨hs3, hn3⟩ := makeDir_pres hs2 h5
          obtain ⟨hs4, e4⟩ := child_pres hs3 hn3 ⟨hc.1, hd, hdd⟩ hc.2 h6
          exact ⟨hs4, fun _ => ⟨f2, e4⟩⟩
    obtain ⟨a, b', c'⟩ := hfin _ _ key.1 h2
    exact ⟨a, b', fun hf hp => by rw [c' hf]; exact key.2 hp⟩

/-- `fsGet` likewise -/
theorem fsGet_pres {b : Bool} {n : Nat} {S₀ S : FS} {d : Path} {l : Str} {create follow : Bool} {S' : FS} {r : Path}
    (hs : Step b create S₀ S d) (hl : b = true → clean l ≠ ['/']) (h : fsGet n S d l create follow = some (.ok (S', r))) :
    Step b create S₀ S' r :=
  fsGetWith_pres (P := Step b create S₀) (fun S d c fl S' r h1 h2 h3 => (get_pres n S₀ S d c create fl S' r h1 h2 h3).1)
    (fun _ _ h => h.root) hl hs h

theorem walk_last {g : FS → Path → Str → Bool → Res (FS × Path)} {c : Str} :
    ∀ (cs : List Str) (S : FS) (d : Path) (fl : Bool) (S' : FS) (r : Path),
      walk g S d (cs ++ [c]) fl = some (.ok (S', r)) →
      ∃ S1 d1, walk g S d cs false = some (.ok (S1, d1)) ∧ g S1 d1 c fl = some (.ok (S', r)) := by
  intro cs
  induction cs with
  | nil => intro S d fl S' r h; exact ⟨S, d, rfl, h⟩
  | cons x cs ih =>
    intro S d fl S' r h
    rw [List.cons_append, walk] at h
    · obtain ⟨y, e, h⟩ := bind_ok.mp h
      obtain ⟨S1, d1, h1, h2⟩ := ih _ _ _ _ _ h
      cases cs with
      | nil =>
        refine ⟨S1, d1, ?_, h2⟩
        rw [walk, e]; exact h1
      | cons z zs =>
        refine ⟨S1, d1, ?_, h2⟩
        rw [walk]
        · rw [e]; exact h1
        · simp
    · simp

/-- the names of the entries that `parseLayer` lets through: the root, or ordinary elements only -/
theorem inside_elems {s : Str} (h : outside (clean s) = false) :
    ∃ cs, (∀ c ∈ cs, Plain c) ∧ isRooted (clean s) = false ∧ clean s = render false cs ∧
      split '/' (clean s) = if cs = [] then [['.']] else cs := by
  obtain ⟨cs, hcs, hr, ec, h1, h2⟩ := split_clean s
  unfold outside at h
  simp only [Bool.or_eq_false_iff, decide_eq_false_iff_not] at h
  have hroot : isRooted s = false := by
    rw [← hr]
    cases e : isRooted (clean s) with
    | false => rfl
    | true =>
      unfold isRooted at e
      simp only [decide_eq_true_eq] at e
      have : hasPrefix (clean s) "/".toList = true := by
        cases h3 : clean s with
        | nil => rw [h3] at e; simp at e
        | cons a l => rw [h3] at e; simp at e; rw [e]; simp [hasPrefix]
      rw [this] at h; simp at h
  refine ⟨cs, ?_, by rw [hr, hroot], by rw [ec, hroot], h2 hroot⟩
  obtain ⟨n, ds, e, hds, _⟩ := hcs
  cases n with
  | zero => rw [e]; simpa using hds
  | succ n =>
    exfalso
    rw [ec, hroot, e, List.replicate_succ] at h
    rcases h with ⟨⟨_, h3⟩, h4⟩
    cases ht : List.replicate n ['.', '.'] ++ ds with
    | nil => rw [List.cons_append, ht] at h4; exact h4 (by simp [render, join])
    | cons a l =>
      rw [List.cons_append, ht] at h3
      simp [render, join, hasPrefix] at h3

/-- `fsGet` for an entry of a layer -/
theorem fsGet_entry {b : Bool} {n : Nat} {S : FS} {s : Str} {S' : FS} {r : Path} (hs : Inv b S)
    (ho : outside (clean s) = false) (h : fsGet n S [] (clean s) true false = some (.ok (S', r))) :
    Step b true S S' r ∧ (r = [] ∧ clean s = ['.'] ∨ ∃ p c, r = p ++ [c] ∧ Plain c ∧ pathBase (clean s) = c) := by
  have hst : Step b true S S [] := ⟨hs, hs.root, fun _ h => h, by simp⟩
  obtain ⟨cs, hcs, hr, ec, hsp⟩ := inside_elems ho
  have h1 := fsGet_pres hst (by intro _ e; rw [clean_idem] at e; rw [e] at hr; simp [isRooted] at hr) h
  refine ⟨h1, ?_⟩
  unfold fsGet fsGetWith at h
  simp only [clean_idem] at h
  rw [hr, if_neg (by simp), hsp] at h
  rcases snoc_cases cs with rfl | ⟨ds, c, rfl⟩
  · left
    rw [if_pos rfl] at h
    cases n with
    | zero => simp [walk, get] at h
    | succ n =>
      simp only [walk] at h
      rw [get] at h
      simp only [if_neg (show (['.'] : Str) ≠ "..".toList by decide), if_pos (show (['.'] : Str) = ".".toList from rfl),
        bind_some_ok, Bool.false_eq_true, if_false, Option.some.injEq, Except.ok.injEq, Prod.mk.injEq] at h
      exact ⟨h.2.symm, ec⟩
  · right
    rw [if_neg (by simp)] at h
    have hc : Plain c := hcs c (by simp)
    obtain ⟨S1, d1, h2, h3⟩ := walk_last _ _ _ _ _ _ h
    have h4 : Step b true S S1 d1 := walk_pres (P := Step b true S) (E := ElemOK b)
      (fun S0 d c fl S' r h1 h2 h3 => (get_pres n S S0 d c true fl S' r h1 h2 h3).1) _ _ _ _ _ _ hst
      (fun c hc => ⟨(hcs c (by simp [hc])).2.2.2, fun _ => (hcs c (by simp [hc])).1⟩) h2
    obtain ⟨_, _, h5⟩ := get_pres n S S1 d1 c true false S' r h4 ⟨hc.2.2.2, fun _ => hc.1⟩ h3
    obtain ⟨p, e⟩ := h5 rfl hc
    exact ⟨p, c, e, hc, by rw [ec, pathBase_render hc]⟩

/-- `Set` keeps the invariant -/
theorem set_pres {b : Bool} {n : Nat} {S : FS} {f : Path} {hdr : Header} {bd : Bytes} {S' : FS} (hs : Inv b S)
    (hf : S.has f) (he : EntryOK b f hdr) (h : set n S f hdr bd = some (.ok S')) : Inv b S' := by
  unfold set at h
  split at h
  · simp only [Option.some.injEq, Except.ok.injEq] at h
    rw [← h]; exact hs.setFile hf bd he
  · rename_i ht
    have ht : hdr.typeflag = typeDir := Classical.byContradiction ht
    have h1 := hs.putDir hf bd he ht
    split at h
    · rename_i hn
      have e1 : (S.put f ⟨some hdr, bd⟩).nonDir f = false := by
        unfold FS.nonDir; rw [get?_put, if_pos rfl]; simp [Node.nonDir, ht]
      have e2 : ∀ c, (S.put f ⟨some hdr, bd⟩).get? (f ++ [c]) = none := by
        intro c; rw [get?_put, if_neg (by simp)]; exact hs.leaf f hn c
      rcases get_opq_cases e1 e2 n with e | e
      · rw [e] at h; simp [Res.bind] at h
      · rw [e] at h
        simp only [bind_some_ok, Option.some.injEq, Except.ok.injEq] at h
        subst h
        have h2 := h1.opq (by unfold FS.has; rw [get?_put, if_pos rfl]; rfl) e1 e2
        exact h2.unmark (unmark_root f h2.root)
    · simp only [Option.some.injEq, Except.ok.injEq] at h
      rw [← h]; exact h1.unmark (unmark_root f h1.root)

theorem inv_empty (b : Bool) : Inv b emptyFS := by
  have hg : ∀ q, emptyFS.get? q = if q = [] then some ⟨none, []⟩ else none := by
    intro q
    unfold emptyFS FS.get?
    by_cases h : q = []
    · subst h; rfl
    · rw [if_neg h, List.find?_cons_of_neg (by simpa using h)]; rfl
  refine ⟨by decide, rfl, ?_, ?_, ?_, ?_, ?_⟩
  · intro p c h; unfold FS.has at h; rw [hg, if_neg (by simp)] at h; simp at h
  · intro p h c; rw [hg, if_neg (by simp)]
  · intro p h c hc
    unfold FS.has at h
    rw [hg] at h
    split at h
    · rename_i e; subst e; simp at hc
    · simp at h
  · intro _ p l h
    unfold FS.link at h
    rw [hg] at h
    split at h
    · rename_i e; split at e
      · injection e with e; subst e; simp [Node.link] at h
      · simp at e
    · simp at h
  · intro p c nd hd h; rw [hg, if_neg (by simp)] at h; simp at h

/-- an entry after `parseLayer` -/
structure ParsedOK (b : Bool) (e : Entry) : Prop where
  name : ∃ s, e.header.name = clean s ∧ outside (clean s) = false
  link : b = true → e.header.typeflag = typeSymlink → clean e.header.linkname ≠ ['/']

theorem addEntry_pres {b : Bool} {n : Nat} {S : FS} {e : Entry} {S' : FS} (hs : Inv b S) (he : ParsedOK b e)
    (h : addEntry n S e = some (.ok S')) : Inv b S' := by
  unfold addEntry at h
  obtain ⟨⟨S1, r⟩, h1, h2⟩ := bind_ok.mp h
  obtain ⟨s, en, eo⟩ := he.name
  rw [en] at h1
  obtain ⟨hst, hr⟩ := fsGet_entry hs eo h1
  refine set_pres hst.inv hst.has ⟨?_, he.link⟩ h2
  rcases hr with hr | ⟨p, c, e1, e2, e3⟩
  · exact .inl hr.1
  · exact .inr ⟨p, c, e1, e2, .inr (by rw [en]; exact e3)⟩

theorem addEntries_pres {b : Bool} {n : Nat} : ∀ (es : List Entry) (S S' : FS), Inv b S → (∀ e ∈ es, ParsedOK b e) →
    addEntries n S es = some (.ok S') → Inv b S' := by
  intro es
  induction es with
  | nil =>
    intro S S' hs _ h
    simp only [addEntries, Option.some.injEq, Except.ok.injEq] at h
    rw [← h]; exact hs
  | cons e es ih =>
    intro S S' hs he h
    rw [addEntries] at h
    obtain ⟨S1, h1, h2⟩ := bind_ok.mp h
    exact ih _ _ (addEntry_pres hs (he e (by simp)) h1) (fun x hx => he x (by simp [hx])) h2

/-- no symlink of the layer leads to "/" -/
def NoRootLink (l : List Entry) : Prop := ∀ e ∈ l, e.header.typeflag = '2' → clean e.header.linkname ≠ "/".toList

theorem parseLayer_ok {b oc : Bool} : ∀ (l ws fs : List Entry), (b = true → NoRootLink l) → parseLayer oc l = .ok (ws, fs) →
    (∀ e ∈ ws, ParsedOK b e) ∧ (∀ e ∈ fs, ParsedOK b e) := by
  intro l
  induction l with
  | nil => intro ws fs _ h; simp only [parseLayer, Except.ok.injEq, Prod.mk.injEq] at h; rw [← h.1, ← h.2]; simp
  | cons e l ih =>
    intro ws fs hb h
    rw [parseLayer] at h
    simp only at h
    split at h
    · simp at h
    · rename_i ho
      cases hp : parseLayer oc l with
      | error x => rw [hp] at h; simp at h
      | ok y =>
        obtain ⟨ws', fs'⟩ := y
        rw [hp] at h
        obtain ⟨i1, i2⟩ := ih ws' fs' (fun hb' e he => hb hb' e (by simp [he])) hp
        have hok : ParsedOK b ⟨{ e.header with name := clean e.header.name }, if oc then [] else e.body⟩ :=
          ⟨⟨e.header.name, rfl, by simpa using ho⟩, fun hb' ht => hb hb' e (by simp) ht⟩
        simp only at h
        split at h
        · simp only [Except.ok.injEq, Prod.mk.injEq] at h
          rw [← h.1, ← h.2]
          exact ⟨by simpa using ⟨hok, i1⟩, i2⟩
        · simp only [Except.ok.injEq, Prod.mk.injEq] at h
          rw [← h.1, ← h.2]
          exact ⟨i1, by simpa using ⟨hok, i2⟩⟩

theorem loadFrom_pres {b : Bool} {n : Nat} {oc : Bool} : ∀ (ls : List (List Entry)) (S S' : FS), Inv b S →
    (b = true → ∀ l ∈ ls, NoRootLink l) → loadFrom n oc S ls = some (.ok S') → Inv b S' := by
  intro ls
  induction ls with
  | nil =>
    intro S S' hs _ h
    simp only [loadFrom, Option.some.injEq, Except.ok.injEq] at h
    rw [← h]; exact hs
  | cons l ls ih =>
    intro S S' hs hb h
    rw [loadFrom] at h
    cases hp : parseLayer oc l with
    | error x => rw [hp] at h; simp at h
    | ok y =>
      obtain ⟨ws, fs⟩ := y
      rw [hp] at h
      simp only at h
      obtain ⟨p1, p2⟩ := parseLayer_ok l ws fs (fun hb' => hb hb' l (by simp)) hp
      obtain ⟨S1, h1, h2⟩ := bind_ok.mp h
      obtain ⟨S2, h3, h4⟩ := bind_ok.mp h2
      exact ih _ _ (addEntries_pres _ _ _ (addEntries_pres _ _ _ hs p1 h1) p2 h3) (fun hb' x hx => hb hb' x (by simp [hx])) h4

/-- every loaded file system satisfies the invariant -/
theorem load_inv {b : Bool} {n : Nat} {oc : Bool} {layers : List (List Entry)} {S : FS}
    (hb : b = true → ∀ l ∈ layers, NoRootLink l) (h : loadLayers n layers oc = some (.ok S)) : Inv b S :=
  loadFrom_pres layers _ _ (inv_empty b) hb h

end Squash
