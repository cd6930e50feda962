import Verif.Squash.PropsTree
/-! The exact effect of looking up (with creation) and setting an entry, when no directory on its path is a symlink. -/
namespace Squash
open Go

/-- a node seen as a directory: one that is missing or not a directory becomes an implied directory -/
def dirOr (x : Option Node) : Node :=
  match x with
  | some nd => if nd.nonDir then ⟨none, []⟩ else nd
  | none => ⟨none, []⟩

theorem dirOr_nonDir (x : Option Node) : (dirOr x).nonDir = false := by
  unfold dirOr
  cases x with
  | none => rfl
  | some nd =>
    simp only
    cases h : nd.nonDir with
    | true => rfl
    | false => simpa using h

theorem dirOr_dir {nd : Node} (h : nd.nonDir = false) : dirOr (some nd) = nd := by
  unfold dirOr; simp [h]

theorem dirOr_link (x : Option Node) : (dirOr x).link = none := by
  have := dirOr_nonDir x
  revert this
  generalize dirOr x = nd
  intro h
  unfold Node.nonDir at h
  unfold Node.link
  cases hh : nd.header with
  | none => rfl
  | some hd =>
    rw [hh] at h
    simp only [ne_eq, decide_not, Bool.not_eq_eq_eq_not, Bool.not_false, decide_eq_true_eq] at h
    simp only [h]; rfl

/-- state after `Get(c, create, !follow)` in the directory `d` -/
def touched (S : FS) (d : Path) (c : Str) (q : Path) : Option Node :=
  if q = d then some (dirOr (S.get? d))
  else if q = d ++ [opqName] ∧ S.nonDir d = true then some ⟨some opqHeader, []⟩
  else if q = d ++ [c] then some ((S.get? q).getD ⟨none, []⟩)
  else S.get? q

theorem get_step {b : Bool} {n : Nat} {S : FS} {d : Path} {c : Str} (hi : Inv b S) (hd : S.has d) (hl : S.link d = none)
    (hc : Plain c) :
    ∃ S', get (n + 3) S d c true false = some (.ok (S', d ++ [c])) ∧ Inv b S' ∧ ∀ q, S'.get? q = touched S d c q := by
  have hdd : c ≠ "..".toList := hc.2.2.1
  have hdot : c ≠ ".".toList := hc.2.1
  have key : ∀ T, Inv b T → T.has d → T.nonDir d = false → ∃ S', child true T d c = some (.ok (S', d ++ [c])) ∧ Inv b S' ∧
      ∀ q, S'.get? q = if q = d ++ [c] then some ((T.get? q).getD ⟨none, []⟩) else T.get? q := by
    intro T hT hTd hTn
    cases e : T.get? (d ++ [c]) with
    | some nd =>
      refine ⟨T, child_old (has_of e), hT, ?_⟩
      intro q
      split
      · rename_i e1; rw [e1, e]; rfl
      · rfl
    | none =>
      refine ⟨_, child_new e, hT.child hTd hTn e (plainGood hc) (fun _ => hc.1), ?_⟩
      intro q
      rw [get?_put]
      split
      · rename_i e1; rw [e1, e]; rfl
      · rfl
  have e0 : get (n + 3) S d c true false =
      (makeDir (fun S f => get (n + 2) S f opqName true true) true S d).bind fun T => (child true T d c).bind fun x => some (.ok x) := by
    rw [get]
    simp only
    rw [if_neg hdd, if_neg hdot, enter_dir hl, bind_some_ok]
    generalize makeDir (fun S f => get (n + 2) S f opqName true true) true S d = m
    match m with
    | none => rfl
    | some (.error _) => rfl
    | some (.ok T) => rfl
  rw [e0]
  cases hn : S.nonDir d with
  | false =>
    rw [makeDir_dir hn, bind_some_ok]
    obtain ⟨S', h1, h2, h3⟩ := key S hi hd hn
    refine ⟨S', by rw [h1]; rfl, h2, ?_⟩
    intro q
    rw [h3]
    unfold touched
    by_cases e1 : q = d
    · rw [if_pos e1, if_neg (by rw [e1]; simp)]
      unfold FS.has at hd
      unfold FS.nonDir at hn
      rw [e1]
      cases e2 : S.get? d with
      | none => rw [e2] at hd; simp at hd
      | some nd => rw [e2] at hn; rw [dirOr_dir hn]
    · have hx : ¬ (q = d ++ [opqName] ∧ S.nonDir d = true) := by rw [hn]; simp
      rw [if_neg e1, if_neg hx]
  | true =>
    have hT := hi.clear hd hn
    have hg := get?_clear hi hd hn
    have e1 : (S.put d ⟨none, []⟩).nonDir d = false := by unfold FS.nonDir; rw [get?_put, if_pos rfl]; rfl
    have e2 : ∀ c, (S.put d ⟨none, []⟩).get? (d ++ [c]) = none := by
      intro c; rw [get?_put, if_neg (by simp)]; exact hi.leaf d hn c
    have em : makeDir (fun S f => get (n + 2) S f opqName true true) true S d =
        some (.ok (setFile ((S.put d ⟨none, []⟩).put (d ++ [opqName]) ⟨none, []⟩) (d ++ [opqName]) opqHeader [])) := by
      unfold makeDir
      rw [hn]
      simp only [if_true, Bool.not_true, Bool.false_eq_true, if_false]
      rw [get_opq e1 e2, bind_some_ok]
    rw [em, bind_some_ok]
    have hdn : (setFile ((S.put d ⟨none, []⟩).put (d ++ [opqName]) ⟨none, []⟩) (d ++ [opqName]) opqHeader []).get? d = some ⟨none, []⟩ := by
      rw [hg, if_neg (by simp), if_pos rfl]
    obtain ⟨S', h1, h2, h3⟩ := key _ hT (has_of hdn) (by unfold FS.nonDir; rw [hdn]; rfl)
    refine ⟨S', by rw [h1]; rfl, h2, ?_⟩
    intro q
    rw [h3, hg]
    unfold touched
    have hS : dirOr (S.get? d) = ⟨none, []⟩ := by
      unfold FS.nonDir at hn
      unfold dirOr
      cases e3 : S.get? d with
      | none => rfl
      | some nd => rw [e3] at hn; simp [hn]
    by_cases a1 : q = d
    · rw [if_pos a1, if_neg (by rw [a1]; simp), if_neg (by rw [a1]; simp), if_pos a1, hS]
    · rw [if_neg a1, if_neg a1]
      by_cases a2 : q = d ++ [opqName]
      · have hx : q = d ++ [opqName] ∧ S.nonDir d = true := ⟨a2, hn⟩
        rw [if_pos a2, if_pos hx]; simp
      · have hx : ¬ (q = d ++ [opqName] ∧ S.nonDir d = true) := fun h => a2 h.1
        rw [if_neg a2, if_neg hx]

theorem touched_nonDir_link {S S' : FS} {d : Path} {c : Str} (h : ∀ q, S'.get? q = touched S d c q) {p : Path} {l : Str}
    (hl : S'.link p = some l) : S.link p = some l := by
  unfold FS.link at hl ⊢
  rw [h] at hl
  unfold touched at hl
  split at hl
  · rename_i x e
    split at e
    · injection e with e; rw [← e, dirOr_link] at hl; simp at hl
    · split at e
      · injection e with e; rw [← e] at hl; simp [Node.link, opqHeader, typeReg, typeSymlink] at hl
      · split at e
        · rename_i e3
          cases e4 : S.get? p with
          | none => rw [e4] at e; simp only [Option.getD_none] at e; injection e with e; rw [← e] at hl; simp [Node.link] at hl
          | some nd => rw [e4] at e; simp only [Option.getD_some] at e; injection e with e; rw [← e] at hl; exact hl
        · rw [e]; exact hl
  · simp at hl


/-- state after looking up the elements `cs` (with creation) from the directory `d`: the node at `d ++ t` -/
def walked (S : FS) (d : Path) (cs t : List Str) : Option Node :=
  if t <+: cs ∧ t ≠ cs then some (dirOr (S.get? (d ++ t)))
  else if t.getLast? = some opqName ∧ t.dropLast <+: cs ∧ t.dropLast ≠ cs ∧ S.nonDir (d ++ t.dropLast) = true then
    some ⟨some opqHeader, []⟩
  else if t = cs then some ((S.get? (d ++ t)).getD ⟨none, []⟩)
  else S.get? (d ++ t)

theorem dirOr_getD (x : Option Node) : dirOr (some (x.getD ⟨none, []⟩)) = dirOr x := by
  cases x <;> rfl

theorem walk_exact {b : Bool} {n : Nat} : ∀ (cs : List Str) (S : FS) (d : Path), Inv b S → S.has d → cs ≠ [] → (∀ c ∈ cs, Plain c) →
    (∀ t, t <+: cs → t ≠ cs → S.link (d ++ t) = none) →
    ∃ S', walk (fun S d c fl => get (n + 3) S d c true fl) S d cs false = some (.ok (S', d ++ cs)) ∧ Inv b S' ∧
      (∀ p l, S'.link p = some l → S.link p = some l) ∧
      (∀ t, (opqName ∉ cs.dropLast ∨ opqName ∉ t) → S'.get? (d ++ t) = walked S d cs t) ∧
      (∀ q, ¬ d <+: q → S'.get? q = S.get? q) := by
  intro cs
  induction cs with
  | nil => intro S d _ _ h; exact absurd rfl h
  | cons c cs ih =>
    intro S d hi hd _ hp hl
    have hc : Plain c := hp c (by simp)
    have hld : S.link d = none := by simpa using hl [] (by simp) (by simp)
    obtain ⟨S1, e1, hi1, hg1⟩ := get_step (n := n) hi hd hld hc
    have hll := @touched_nonDir_link S S1 d c hg1
    have hsub : ∀ q, ¬ d <+: q → S1.get? q = S.get? q := by
      intro q hq
      rw [hg1]
      unfold touched
      have x1 : ¬ q = d := fun e => hq (by rw [e]; exact List.prefix_refl _)
      have x2 : ¬ (q = d ++ [opqName] ∧ S.nonDir d = true) := fun e => hq (by rw [e.1]; exact List.prefix_append _ _)
      have x3 : ¬ q = d ++ [c] := fun e => hq (by rw [e]; exact List.prefix_append _ _)
      rw [if_neg x1, if_neg x2, if_neg x3]
    cases cs with
    | nil =>
      refine ⟨S1, e1, hi1, fun p l => hll, ?_, hsub⟩
      intro t _
      rw [hg1]
      unfold touched walked
      have hpre : ∀ t : List Str, (t <+: [c] ∧ t ≠ [c]) ↔ t = [] := by
        intro t
        rw [List.prefix_cons_iff]
        constructor
        · rintro ⟨h | ⟨u, h, h2⟩, h3⟩
          · exact h
          · rw [List.prefix_nil.mp h2] at h; exact absurd h h3
        · rintro rfl; simp
      rcases snoc_cases t with rfl | ⟨u, x, rfl⟩
      · rw [if_pos (by simp), if_pos (by simp)]; simp
      · have h0 : ¬ (d ++ (u ++ [x]) = d) := by simp
        have h1 : (d ++ (u ++ [x]) = d ++ [c]) ↔ (u ++ [x] : List Str) = [c] := by
          rw [List.append_cancel_left_eq]
        have h2 : ¬ (u ++ [x] <+: [c] ∧ u ++ [x] ≠ [c]) := by rw [hpre]; simp
        have h3 : (d ++ (u ++ [x]) = d ++ [opqName] ∧ S.nonDir d = true) ↔ ((u ++ [x]).getLast? = some opqName ∧
            (u ++ [x]).dropLast <+: [c] ∧ (u ++ [x]).dropLast ≠ [c] ∧ S.nonDir (d ++ (u ++ [x]).dropLast) = true) := by
          rw [List.append_cancel_left_eq, List.dropLast_concat]
          have h4 : (u ++ [x]).getLast? = some x := by simp
          rw [h4]
          constructor
          · rintro ⟨h, h'⟩
            have : u = [] ∧ x = opqName := by
              cases u with
              | nil => simpa using h
              | cons y u => simp at h
            rw [this.1, this.2]
            refine ⟨rfl, List.nil_prefix, by simp, by simpa using h'⟩
          · rintro ⟨h, h5, h6, h7⟩
            have := (hpre u).mp ⟨h5, h6⟩
            rw [this] at h7 ⊢
            injection h with h
            rw [h]
            exact ⟨rfl, by simpa using h7⟩
        rw [if_neg h0, if_neg h2]
        simp only [h1, h3]
    | cons c2 cs =>
      have hd1 : S1.has (d ++ [c]) := by
        unfold FS.has
        rw [hg1]
        unfold touched
        rw [if_neg (by simp)]
        split
        · rfl
        · rw [if_pos rfl]; rfl
      obtain ⟨S2, e2, hi2, hl2, hg2, hs2⟩ := ih S1 (d ++ [c]) hi1 hd1 (by simp) (fun x hx => hp x (by simp [hx])) (by
        intro t h1 h2
        cases h : S1.link (d ++ [c] ++ t) with
        | none => rfl
        | some l =>
          have := hl (c :: t) (by simpa using h1) (by simpa using h2)
          have e : d ++ [c] ++ t = d ++ c :: t := by simp
          rw [e] at h
          rw [hll h] at this
          simp at this)
      refine ⟨S2, ?_, hi2, fun p l h => hll (hl2 p l h), ?_, ?_⟩
      · rw [walk]
        · rw [e1, bind_some_ok, e2]; simp
        · simp
      · intro t ht
        have hdl : (c :: c2 :: cs).dropLast = c :: (c2 :: cs).dropLast := rfl
        rw [hdl] at ht
        cases t with
        | nil =>
          rw [hs2 _ (by simpa using snoc_not_prefix), hg1]
          unfold touched walked
          simp
        | cons x t =>
          by_cases hx : x = c
          · subst hx
            have hxo : x ≠ opqName := by
              rcases ht with h | h
              · simp only [List.mem_cons, not_or] at h; exact fun e => h.1 e.symm
              · simp only [List.mem_cons, not_or] at h; exact fun e => h.1 e.symm
            have ht' : opqName ∉ (c2 :: cs).dropLast ∨ opqName ∉ t := by
              rcases ht with h | h
              · simp only [List.mem_cons, not_or] at h; exact .inl h.2
              · simp only [List.mem_cons, not_or] at h; exact .inr h.2
            have hS : ∀ u, (d ++ [x] ++ u) ≠ d ++ [opqName] := by
              intro u e
              rw [List.append_assoc, List.append_cancel_left_eq] at e
              simp only [List.singleton_append, List.cons.injEq] at e
              exact hxo e.1
            have hgu : ∀ u, u ≠ [] → S1.get? (d ++ [x] ++ u) = S.get? (d ++ [x] ++ u) := by
              intro u hu
              rw [hg1]
              unfold touched
              rw [if_neg (by simp), if_neg (fun e => hS u e.1), if_neg (by simpa using hu)]
            have hg0 : S1.get? (d ++ [x] ++ []) = some ((S.get? (d ++ [x] ++ [])).getD ⟨none, []⟩) := by
              rw [hg1]
              unfold touched
              rw [if_neg (by simp), if_neg (fun e => hS [] e.1), if_pos (by simp)]
            have hdo : ∀ u, dirOr (S1.get? (d ++ [x] ++ u)) = dirOr (S.get? (d ++ [x] ++ u)) := by
              intro u
              by_cases hu : u = []
              · rw [hu, hg0, dirOr_getD]
              · rw [hgu u hu]
            have hnd : ∀ u, S1.nonDir (d ++ [x] ++ u) = S.nonDir (d ++ [x] ++ u) := by
              intro u
              by_cases hu : u = []
              · rw [hu]; unfold FS.nonDir; rw [hg0]
                cases S.get? (d ++ [x] ++ []) <;> rfl
              · exact nonDir_eq (hgu u hu)
            have e : d ++ x :: t = d ++ [x] ++ t := by simp
            rw [e, hg2 t ht']
            unfold walked
            rw [e, hdo, hnd]
            have p1 : (t <+: c2 :: cs ∧ t ≠ c2 :: cs) ↔ (x :: t <+: x :: c2 :: cs ∧ x :: t ≠ x :: c2 :: cs) := by simp
            by_cases ht0 : t = []
            · subst ht0
              rw [if_pos (by simp), if_pos (by simp)]
            · have p2 : (t.getLast? = some opqName ∧ t.dropLast <+: c2 :: cs ∧ t.dropLast ≠ c2 :: cs ∧
                    S.nonDir (d ++ [x] ++ t.dropLast) = true) ↔
                  ((x :: t).getLast? = some opqName ∧ (x :: t).dropLast <+: x :: c2 :: cs ∧ (x :: t).dropLast ≠ x :: c2 :: cs ∧
                    S.nonDir (d ++ (x :: t).dropLast) = true) := by
                have q1 : (x :: t).dropLast = x :: t.dropLast := List.dropLast_cons_of_ne_nil ht0
                have q2 : (x :: t).getLast? = t.getLast? := by
                  rw [List.getLast?_cons, List.getLast?_eq_some_getLast ht0]; rfl
                rw [q1, q2]
                simp
              simp only [p1, p2, hgu t ht0]
              simp
          · have hnp : ¬ (d ++ [c]) <+: (d ++ x :: t) := by
              rw [List.prefix_append_right_inj]
              intro h
              simp only [List.cons_prefix_cons, List.nil_prefix, and_true] at h
              exact hx h.symm
            rw [hs2 _ hnp, hg1]
            unfold touched walked
            have a1 : ¬ (x :: t <+: c :: c2 :: cs ∧ x :: t ≠ c :: c2 :: cs) := by
              rintro ⟨h, _⟩
              exact hx (List.cons_prefix_cons.mp h).1
            have a2 : ¬ (d ++ x :: t = d ++ [c]) := by
              intro h; apply hnp; rw [h]; exact List.prefix_refl _
            have a3 : ¬ (x :: t = c :: c2 :: cs) := fun h => hx (List.cons.inj h).1
            rw [if_neg (by simp), if_neg a1, if_neg a2, if_neg a3]
            by_cases ht0 : t = []
            · subst ht0
              simp
            · have a4 : ¬ (d ++ x :: t = d ++ [opqName] ∧ S.nonDir d = true) := by
                rintro ⟨h, _⟩
                rw [List.append_cancel_left_eq] at h
                exact ht0 (List.cons.inj h).2
              have a5 : ¬ ((x :: t).getLast? = some opqName ∧ (x :: t).dropLast <+: c :: c2 :: cs ∧
                  (x :: t).dropLast ≠ c :: c2 :: cs ∧ S.nonDir (d ++ (x :: t).dropLast) = true) := by
                rintro ⟨_, h, _⟩
                rw [List.dropLast_cons_of_ne_nil ht0] at h
                exact hx (List.cons_prefix_cons.mp h).1
              rw [if_neg a4, if_neg a5]
      · intro q hq
        rw [hs2 q (fun h => hq ((List.prefix_append _ _).trans h)), hsub q hq]


/-- what the end of `Set` at `f` leaves of a file system -/
def unm (f : Path) (V : Path → Option Node) (q : Path) : Option Node :=
  match f.getLast? with
  | none => if [whPrefix ++ ['.']] <+: q then none else V q
  | some c =>
    if hasPrefix c whPrefix = true then
      if c = opqName then (if f.dropLast <+: q ∧ q ≠ f.dropLast ∧ ¬ f <+: q then none else V q)
      else (if (f.dropLast ++ [trimPrefix c whPrefix]) <+: q then none else V q)
    else (if (f.dropLast ++ [whPrefix ++ c]) <+: q then none else V q)

theorem unmark_exact {S : FS} {f : Path} (hf : ∀ c ∈ f, Plain c) (q : Path) : (unmark S f).get? q = unm f S.get? q := by
  rcases snoc_cases f with rfl | ⟨p, c, rfl⟩
  · unfold unmark unm
    have e1 : pathBase (nodeName []) = ['.'] := by decide +kernel
    simp only [e1, List.getLast?_nil]
    rw [if_neg (by decide), get?_delChild]
    rfl
  · rw [get?_unmark (fun d hd => plainGood (hf d (by simp [hd]))) (hf c (by simp))]
    unfold unm
    simp

/-- the node put in place and what remains below it -/
def placed (V : Path → Option Node) (f : Path) (nd : Node) (q : Path) : Option Node :=
  if q = f then some nd
  else if f <+: q then
    if nd.nonDir then none
    else if q = f ++ [opqName] ∧ (V f).any Node.nonDir = true then some ⟨some opqHeader, []⟩
    else V q
  else V q

theorem nonDir_any (S : FS) (f : Path) : S.nonDir f = (S.get? f).any Node.nonDir := by
  unfold FS.nonDir; cases S.get? f <;> rfl

theorem set_exact {b : Bool} {n : Nat} {S : FS} {f : Path} {hdr : Header} {bd : Bytes} (hs : Inv b S)
    (hf : S.has f) (hfp : ∀ c ∈ f, Plain c) (he : EntryOK b f hdr) :
    ∃ S', set (n + 2) S f hdr bd = some (.ok S') ∧ Inv b S' ∧ ∀ q, S'.get? q = unm f (placed S.get? f ⟨some hdr, bd⟩) q := by
  have cong : ∀ {V W : Path → Option Node} (q), (∀ q, V q = W q) → unm f V q = unm f W q := by
    intro V W q h
    have : V = W := funext h
    rw [this]
  have hex : ∃ S', set (n + 2) S f hdr bd = some (.ok S') ∧ ∀ q, S'.get? q = unm f (placed S.get? f ⟨some hdr, bd⟩) q := by
    unfold set
    by_cases ht : hdr.typeflag = typeDir
    · rw [if_neg (fun h => h ht)]
      have hnd : (⟨some hdr, bd⟩ : Node).nonDir = false := by simp [Node.nonDir, ht]
      by_cases hn : S.nonDir f = true
      · rw [if_pos hn]
        have e1 : (S.put f ⟨some hdr, bd⟩).nonDir f = false := by
          unfold FS.nonDir; rw [get?_put, if_pos rfl]; exact hnd
        have e2 : ∀ c, (S.put f ⟨some hdr, bd⟩).get? (f ++ [c]) = none := by
          intro c; rw [get?_put, if_neg (by simp)]; exact hs.leaf f hn c
        rw [get_opq e1 e2, bind_some_ok]
        refine ⟨_, rfl, ?_⟩
        intro q
        rw [unmark_exact hfp]
        apply cong
        intro q
        have hb : ∀ q, f <+: q → q ≠ f → (S.put f ⟨some hdr, bd⟩).get? q = none := by
          intro q h1 h2
          rw [get?_put, if_neg h2, hs.noDesc (hs.leaf f hn) h1 h2]
        rw [get?_opq (fun c hc => plainGood (hfp c hc)) hb, get?_put]
        unfold placed
        rw [hnd, ← nonDir_any]
        by_cases q1 : q = f
        · have x : ¬ q = f ++ [opqName] := by rw [q1]; simp
          rw [if_neg x, if_pos q1, if_pos q1]
        · by_cases q3 : q = f ++ [opqName]
          · have x : f <+: q := by rw [q3]; exact List.prefix_append _ _
            have y : q = f ++ [opqName] ∧ S.nonDir f = true := ⟨q3, hn⟩
            rw [if_pos q3, if_neg q1, if_pos x, if_neg (by simp), if_pos y]
          · have y : ¬ (q = f ++ [opqName] ∧ S.nonDir f = true) := fun h => q3 h.1
            rw [if_neg q3, if_neg q1, if_neg q1, if_neg y]
            simp
      · rw [if_neg hn]
        refine ⟨_, rfl, ?_⟩
        intro q
        rw [unmark_exact hfp]
        apply cong
        intro q
        rw [get?_put]
        unfold placed
        rw [hnd, ← nonDir_any]
        by_cases q1 : q = f
        · rw [if_pos q1, if_pos q1]
        · rw [if_neg q1, if_neg q1]
          by_cases q2 : f <+: q
          · rw [if_pos q2, if_neg (by simp), if_neg (fun h => hn h.2)]
          · rw [if_neg q2]
    · rw [if_pos ht]
      refine ⟨_, rfl, ?_⟩
      intro q
      unfold setFile
      rw [unmark_exact hfp]
      apply cong
      intro q
      have hnd : (⟨some hdr, bd⟩ : Node).nonDir = true := by simp [Node.nonDir, ht]
      rw [get?_delBelow, get?_put]
      unfold placed
      rw [hnd]
      by_cases q1 : q = f
      · rw [if_pos q1, if_pos q1, if_neg (fun h => h.2 q1)]
      · rw [if_neg q1, if_neg q1]
        by_cases q2 : f <+: q
        · rw [if_pos q2, if_pos ⟨q2, q1⟩, if_pos rfl]
        · rw [if_neg q2, if_neg (fun h => q2 h.1)]
  obtain ⟨S', h1, h2⟩ := hex
  exact ⟨S', h1, set_pres hs hf he h1, h2⟩


/-- the state after an entry with path `cs` has been added -/
def stepped (S : FS) (cs : Path) (nd : Node) (q : Path) : Option Node := unm cs (placed (walked S [] cs) cs nd) q

theorem walked_nil {S : FS} (h : S.has []) (q : Path) : walked S [] [] q = S.get? q := by
  unfold walked
  have x1 : ¬ (q <+: [] ∧ q ≠ []) := by rintro ⟨h1, h2⟩; exact h2 (List.prefix_nil.mp h1)
  have x2 : ¬ (q.getLast? = some opqName ∧ q.dropLast <+: [] ∧ q.dropLast ≠ [] ∧ S.nonDir ([] ++ q.dropLast) = true) := by
    rintro ⟨_, h1, h2, _⟩; exact h2 (List.prefix_nil.mp h1)
  rw [if_neg x1, if_neg x2, List.nil_append]
  split
  · rename_i e
    rw [e]
    unfold FS.has at h
    cases e2 : S.get? [] with
    | none => rw [e2] at h; simp at h
    | some nd => rfl
  · rfl

theorem fsGet_exact {b : Bool} {n : Nat} {S : FS} {s : Str} (hi : Inv b S) (ho : outside (clean s) = false)
    (hl : ∀ t, t <+: Spec.comps (clean s) → t ≠ Spec.comps (clean s) → S.link t = none) :
    (∀ c ∈ Spec.comps (clean s), Plain c) ∧ clean s = render false (Spec.comps (clean s)) ∧
    ∃ S', fsGet (n + 3) S [] (clean s) true false = some (.ok (S', Spec.comps (clean s))) ∧ Inv b S' ∧ S'.has (Spec.comps (clean s)) ∧
      (∀ p l, S'.link p = some l → S.link p = some l) ∧
      (∀ t, (opqName ∉ (Spec.comps (clean s)).dropLast ∨ opqName ∉ t) → S'.get? t = walked S [] (Spec.comps (clean s)) t) := by
  obtain ⟨cs, hcs, hr, ec, hsp⟩ := inside_elems ho
  have e : Spec.comps (clean s) = cs := by rw [ec, comps_render hcs]
  rw [e] at hl ⊢
  refine ⟨hcs, ec, ?_⟩
  unfold fsGet fsGetWith
  simp only [clean_idem]
  rw [hr, if_neg (by simp), hsp]
  by_cases hc : cs = []
  · rw [if_pos hc]
    refine ⟨S, ?_, hi, by rw [hc]; exact hi.root, fun _ _ h => h, ?_⟩
    · rw [walk, get]
      simp only [if_neg (show (['.'] : Str) ≠ "..".toList by decide), if_pos (show (['.'] : Str) = ".".toList from rfl),
        bind_some_ok, Bool.false_eq_true, if_false, hc]
    · intro t _
      rw [hc, walked_nil hi.root]
  · rw [if_neg hc]
    obtain ⟨S', h1, h2, h3, h4, _⟩ := walk_exact (n := n) cs S [] hi hi.root hc hcs (by simpa using hl)
    refine ⟨S', h1, h2, ?_, h3, by simpa using h4⟩
    have := (fsGet_entry (n := n + 3) (S := S) (S' := S') (r := cs) (s := s) hi ho (by
      unfold fsGet fsGetWith
      simp only [clean_idem]
      rw [hr, if_neg (by simp), hsp, if_neg hc]
      exact h1)).1.has
    exact this

theorem addEntry_at {b : Bool} {n : Nat} {S S1 : FS} {e : Entry} {cs : Path} (hp : ∀ c ∈ cs, Plain c) (hok : EntryOK b cs e.header)
    (h1 : fsGet (n + 3) S [] e.header.name true false = some (.ok (S1, cs))) (hi1 : Inv b S1) (hh1 : S1.has cs)
    (hl1 : ∀ p l, S1.link p = some l → S.link p = some l)
    (hg1 : ∀ t, (opqName ∉ cs.dropLast ∨ opqName ∉ t) → S1.get? t = walked S [] cs t) :
    ∃ S', addEntry (n + 3) S e = some (.ok S') ∧ Inv b S' ∧
      (∀ p l, S'.link p = some l → S.link p = some l ∨ p = cs ∧ Node.link ⟨some e.header, e.body⟩ = some l) ∧
      (∀ q, (opqName ∉ cs.dropLast ∨ opqName ∉ q) → S'.get? q = stepped S cs ⟨some e.header, e.body⟩ q) := by
  obtain ⟨S2, h2, hi2, hg2⟩ := set_exact (n := n + 1) (bd := e.body) hi1 hh1 hp hok
  refine ⟨S2, ?_, hi2, ?_, ?_⟩
  · unfold addEntry
    rw [h1, bind_some_ok]
    exact h2
  · intro p l h
    unfold FS.link at h
    cases h3 : S2.get? p with
    | none => rw [h3] at h; simp at h
    | some nd =>
      rw [h3] at h
      have hle : ∀ (V : Path → Option Node) q x, unm cs V q = some x → V q = some x := by
        intro V q x
        unfold unm
        split
        · split
          · simp
          · exact id
        · split
          · split
            · split
              · simp
              · exact id
            · split
              · simp
              · exact id
          · split
            · simp
            · exact id
      have h4 := hle _ _ _ (by rw [← hg2 p]; exact h3)
      unfold placed at h4
      by_cases q1 : p = cs
      · rw [if_pos q1] at h4
        injection h4 with h4
        rw [← h4] at h
        exact .inr ⟨q1, h⟩
      · rw [if_neg q1] at h4
        left
        apply hl1
        unfold FS.link
        split at h4
        · split at h4
          · simp at h4
          · split at h4
            · injection h4 with h4; rw [← h4] at h
              simp [Node.link, opqHeader, typeReg, typeSymlink] at h
            · rw [h4]; exact h
        · rw [h4]; exact h
  · intro q hq
    rw [hg2]
    unfold stepped
    have hpl : placed S1.get? cs ⟨some e.header, e.body⟩ q = placed (walked S [] cs) cs ⟨some e.header, e.body⟩ q := by
      unfold placed
      rw [hg1 q hq]
      by_cases q1 : q = cs
      · rw [if_pos q1, if_pos q1]
      · rw [if_neg q1, if_neg q1]
        by_cases q2 : q = cs ++ [opqName]
        · have : opqName ∉ cs.dropLast := by
            rcases hq with h | h
            · exact h
            · exact absurd (by rw [q2]; simp) h
          rw [hg1 cs (.inl this)]
        · have x1 : ∀ P : Prop, ¬ (q = cs ++ [opqName] ∧ P) := fun P h => q2 h.1
          simp only [x1, if_false]
    unfold unm
    rw [hpl]

theorem addEntry_exact {b : Bool} {n : Nat} {S : FS} {e : Entry} (hi : Inv b S) (he : ParsedOK b e)
    (hl : ∀ t, t <+: Spec.comps e.header.name → t ≠ Spec.comps e.header.name → S.link t = none) :
    (∀ c ∈ Spec.comps e.header.name, Plain c) ∧ e.header.name = render false (Spec.comps e.header.name) ∧
    ∃ S', addEntry (n + 3) S e = some (.ok S') ∧ Inv b S' ∧
      (∀ p l, S'.link p = some l → S.link p = some l ∨ p = Spec.comps e.header.name ∧ Node.link ⟨some e.header, e.body⟩ = some l) ∧
      (∀ q, (opqName ∉ (Spec.comps e.header.name).dropLast ∨ opqName ∉ q) →
        S'.get? q = stepped S (Spec.comps e.header.name) ⟨some e.header, e.body⟩ q) := by
  obtain ⟨s, en, eo⟩ := he.name
  have h := fsGet_exact (n := n) hi eo (by rw [en] at hl; exact hl)
  rw [← en] at h
  obtain ⟨hp, er, S1, h1, hi1, hh1, hl1, hg1⟩ := h
  refine ⟨hp, er, addEntry_at hp ⟨?_, he.link⟩ h1 hi1 hh1 hl1 hg1⟩
  rcases snoc_cases (Spec.comps e.header.name) with h | ⟨p, c, h⟩
  · exact .inl h
  · refine .inr ⟨p, c, h, hp c (by simp [h]), .inr ?_⟩
    rw [er, h, pathBase_render (hp c (by simp [h]))]

end Squash
