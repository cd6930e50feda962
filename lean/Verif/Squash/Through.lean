import Verif.Squash.PropsFollow
import Verif.Squash.View
import Verif.Squash.Shape
/-! Lemmas for C99: entries whose paths lead through symlinks. -/
namespace Squash
open Go Spec

section
variable {b0 cr : Bool} {S : FS}

/-- walking on from a node that was followed -/
theorem walk_from (hi : Inv b0 S) (hs : StraightLinks S) {k : Nat} {f d : Path} (hf : S.has f) (hr : R S k f [] d) :
    ∃ n0, ∀ n, n0 ≤ n → ∀ bs fl, bs ≠ [] → (∀ c ∈ bs, Plain c) → walk (Gc cr n) S f bs fl = walk (Gc cr n) S d bs fl := by
  obtain ⟨n0, h⟩ := follow_bwd (cr := cr) hi hs k f d hf hr
  refine ⟨n0 + 1, fun n hn bs fl hb hp => ?_⟩
  obtain ⟨m, rfl⟩ : ∃ m, n = m + 1 := ⟨n - 1, by omega⟩
  have key : ∀ c fl, Plain c → Gc cr (m + 1) S f c fl = Gc cr (m + 1) S d c fl := by
    intro c fl hc
    show get (m + 1) S f c cr fl = get (m + 1) S d c cr fl
    rw [get, get]
    simp only
    rw [if_neg (show ¬ c = "..".toList from hc.2.2.1), if_neg (show ¬ c = ".".toList from hc.2.1), (h m (by omega)).1, enter_dir hr.end,
      if_neg (show ¬ c = "..".toList from hc.2.2.1), if_neg (show ¬ c = ".".toList from hc.2.1)]
  match bs, hb with
  | [c], _ => exact key c fl (hp c (by simp))
  | c :: c2 :: cs, _ =>
    rw [walk, walk]
    · rw [key c false (hp c (by simp))]
    · simp
    · simp

theorem walk_through (hi : Inv b0 S) (hs : StraightLinks S) : ∀ (as : List Str) (k : Nat) (f d : Path), S.has f → (∀ c ∈ as, Plain c) → R S k f as d →
    ∃ n0, ∀ n, n0 ≤ n → ∀ bs fl, bs ≠ [] → (∀ c ∈ bs, Plain c) → walk (Gc cr n) S f (as ++ bs) fl = walk (Gc cr n) S d bs fl := by
  intro as
  induction as with
  | nil => intro k f d hf _ hr; exact walk_from hi hs hf hr
  | cons c cs ih =>
    intro k f d hf hp hr
    obtain ⟨f', k1, k2, h1, h2, h3, _⟩ := hr.cons
    obtain ⟨⟨n1, g1⟩, _⟩ := get_bwd hi (follow_bwd (cr := cr) hi hs k1) hf (hp c (by simp)) h1 h2
    obtain ⟨n2, w⟩ := ih k2 (f' ++ [c]) d h2 (fun x hx => hp x (by simp [hx])) h3
    refine ⟨n1 + n2, fun n hn bs fl hb hpb => ?_⟩
    rw [List.cons_append, walk]
    · rw [g1 n (by omega), bind_some_ok]
      exact w n (by omega) bs fl hb hpb
    · intro e; exact hb (List.append_eq_nil_iff.mp e).2

end

/-- `walked` from a directory below the root is `walked` from the root -/
theorem walked_below {b0 : Bool} {S : FS} (hi : Inv b0 S) {d : Path} {bs : List Str} (hd : S.has d) (hne : bs ≠ []) (q : Path) :
    walked S [] (d ++ bs) q = if d <+: q then walked S d bs (q.drop d.length) else S.get? q := by
  have above : ∀ q, q <+: d → q ≠ d → ∃ nd, S.get? q = some nd ∧ nd.nonDir = false := by
    intro q hq hq'
    have hdn : d ≠ [] := by rintro rfl; exact hq' (List.prefix_nil.mp hq)
    obtain ⟨d', c, rfl⟩ := (snoc_cases d).resolve_left hdn
    have : q <+: (d' ++ [c]).dropLast := by
      rw [List.dropLast_concat]
      rcases snoc_cases q with rfl | ⟨q', c', rfl⟩
      · exact List.nil_prefix
      · exact (prefix_snoc_snoc.mp hq).resolve_left hq'
    obtain ⟨h1, h2, _⟩ := dir_above hi hd hdn this
    obtain ⟨nd, e⟩ := get_of_has h1
    exact ⟨nd, e, by rw [← nonDir_of_get e]; exact h2⟩
  by_cases hq : d <+: q
  · rw [if_pos hq]
    obtain ⟨t, rfl⟩ := hq
    rw [List.drop_left]
    unfold walked
    rw [List.nil_append]
    have e1 : (d ++ t <+: d ++ bs ∧ d ++ t ≠ d ++ bs) ↔ (t <+: bs ∧ t ≠ bs) := by
      rw [List.prefix_append_right_inj, ne_eq, List.append_cancel_left_eq]
    by_cases h1 : t <+: bs ∧ t ≠ bs
    · rw [if_pos (e1.mpr h1), if_pos h1]
    · rw [if_neg (fun h => h1 (e1.mp h)), if_neg h1]
      have ht : t ≠ [] := fun e => h1 ⟨by rw [e]; exact List.nil_prefix, fun e' => hne (by rw [← e', e])⟩
      have e2 : (d ++ t).getLast? = t.getLast? := by
        obtain ⟨t', c, rfl⟩ := (snoc_cases t).resolve_left ht
        rw [← List.append_assoc]; simp
      have e3 : (d ++ t).dropLast = d ++ t.dropLast := List.dropLast_append_of_ne_nil ht
      simp only [e2, e3, List.nil_append, List.prefix_append_right_inj, ne_eq, List.append_cancel_left_eq]
  · rw [if_neg hq]
    unfold walked
    rw [List.nil_append]
    by_cases h1 : q <+: d ++ bs ∧ q ≠ d ++ bs
    · rw [if_pos h1]
      have hqd : q <+: d := by
        rcases List.prefix_or_prefix_of_prefix h1.1 (List.prefix_append d bs) with h | h
        · exact h
        · exact absurd h hq
      obtain ⟨nd, e, e'⟩ := above q hqd (fun e => hq (by rw [e]; exact List.prefix_refl _))
      rw [e]
      unfold dirOr
      simp [e']
    · rw [if_neg h1, if_neg, if_neg]
      · rintro rfl; exact hq (List.prefix_append _ _)
      · rintro ⟨_, h3, h4, h5⟩
        rw [List.nil_append] at h5
        rcases List.prefix_or_prefix_of_prefix h3 (List.prefix_append d bs) with h | h
        · by_cases e : q.dropLast = d
          · exact hq (by rw [← e]; exact List.dropLast_prefix q)
          · obtain ⟨nd, e1, e2⟩ := above _ h e
            rw [nonDir_of_get e1, e2] at h5
            cases h5
        · exact hq (h.trans (List.dropLast_prefix q))

theorem R.hasP {b0 : Bool} {S : FS} (hi : Inv b0 S) (hs : StraightLinks S) {k : Nat} {f : Path} {ns : List Str} {p : Path} (h : R S k f ns p) :
    S.has f → (∀ c ∈ ns, Plain c) → (∀ c ∈ f, Plain c) → S.has p ∧ ∀ c ∈ p, Plain c := by
  induction h with
  | done _ => intro h1 _ h2; exact ⟨h1, h2⟩
  | down _ hh _ ih =>
    intro _ h2 h3
    refine ih hh (fun x hx => h2 x (by simp [hx])) ?_
    intro x hx
    rcases List.mem_append.mp hx with hx | hx
    · exact h3 x hx
    · exact h2 x (by simp at hx; simp [hx])
  | @link k f b ns cs p hk _ ih =>
    intro _ h2 h3
    have hl := hk.isLink
    cases e : S.link f with
    | none => exact absurd e hl
    | some l =>
      refine ih (hk.base hi (hs f l e).1).1 ?_ ?_
      · intro x hx
        rcases List.mem_append.mp hx with hx | hx
        · exact hk.plain x hx
        · exact h2 x hx
      · intro x hx
        obtain ⟨_, j, _, _, g3, _⟩ := hk
        rw [g3] at hx
        split at hx
        · simp at hx
        · exact h3 x (List.dropLast_subset _ ((dropN_prefix j _).subset hx))

theorem addEntry_le {n m : Nat} (h : n ≤ m) (S : FS) (e : Entry) : (addEntry n S e).le (addEntry m S e) := by
  have := addEntries_le h [e] S
  have e1 : ∀ n, addEntries n S [e] = addEntry n S e := by
    intro n
    unfold addEntries
    match addEntry n S e with
    | none => rfl
    | some (.error _) => rfl
    | some (.ok _) => rfl
  rwa [e1, e1] at this

/-- one entry whose walk is one from `d` along names where no symlinks are -/
theorem addEntry_walk {oc : Bool} {S : FS} {e : Entry} {bs : List Str} {d : Path} (hi : Inv false S)
    (ho : outside (clean e.header.name) = false) (hP : pathOf e ≠ []) (hbs : bs ≠ []) (hlast : bs.getLast? = (pathOf e).getLast?)
    (hd : S.has d) (hdp : ∀ c ∈ d, Plain c) (hpb : ∀ c ∈ bs, Plain c)
    (hw : ∃ n0, ∀ n, n0 ≤ n → walk (Gc true n) S [] (pathOf e) false = walk (Gc true n) S d bs false)
    (hl : ∀ t, t <+: bs → t ≠ bs → S.link (d ++ t) = none) :
    ∃ n0 S', (∀ n, n0 ≤ n → addEntry n S (cleaned oc e) = some (.ok S')) ∧ Inv false S' ∧
      (∀ p l, S'.link p = some l → S.link p = some l ∨ p = d ++ bs ∧ Node.link (nodeOf e) = some l) ∧
      (∀ V : View, (∀ q, Visible q → S.get? q = V q) → ∀ q, Visible q → S'.get? q = applyAt V (d ++ bs) (nodeOf (dropBody oc e)) q) ∧
      (∀ c ∈ d ++ bs, Plain c) ∧
      (opqName ∉ (d ++ bs).dropLast → ∀ q, S'.get? q = stepped S (d ++ bs) (nodeOf (dropBody oc e)) q) := by
  obtain ⟨cs, hcs, hroot, ec, hsp⟩ := inside_elems ho
  have ecs : pathOf e = cs := by unfold pathOf; rw [ec, comps_render hcs]
  rw [ecs] at hP hlast hw
  obtain ⟨n0, hw⟩ := hw
  obtain ⟨S1, w1, w2, w3, w4, w5⟩ := walk_exact (n := n0) bs S d hi hd hbs hpb hl
  have hfs : fsGet (n0 + 3) S [] (cleaned oc e).header.name true false = some (.ok (S1, d ++ bs)) := by
    show fsGetWith (Gc true (n0 + 3)) S [] (clean e.header.name) false = _
    unfold fsGetWith
    simp only [clean_idem]
    rw [hroot, if_neg (by simp), hsp, if_neg hP, hw (n0 + 3) (by omega)]
    exact w1
  have hplain : ∀ c ∈ d ++ bs, Plain c := by
    intro c hc
    rcases List.mem_append.mp hc with hc | hc
    · exact hdp c hc
    · exact hpb c hc
  obtain ⟨bs', x, hx⟩ := (snoc_cases bs).resolve_left hbs
  have hg : ∀ t, (opqName ∉ (d ++ bs).dropLast ∨ opqName ∉ t) → S1.get? t = walked S [] (d ++ bs) t := by
    intro t ht
    rw [walked_below hi hd hbs]
    split
    · rename_i h
      obtain ⟨u, rfl⟩ := h
      rw [List.drop_left]
      refine w4 u ?_
      rcases ht with ht | ht
      · left
        intro hm
        apply ht
        rw [List.dropLast_append_of_ne_nil hbs]
        simp [hm]
      · right
        intro hm
        exact ht (by simp [hm])
    · rename_i h
      exact w5 t h
  have hhas : S1.has (d ++ bs) := (fsGet_entry hi ho hfs).1.has
  obtain ⟨S', h1, h2, h3, h4⟩ := addEntry_at (b := false) hplain ⟨.inr ⟨d ++ bs', x, by rw [hx, List.append_assoc], hpb x (by simp [hx]), .inr (by
    show pathBase (clean e.header.name) = x
    obtain ⟨cs', y, hy⟩ := (snoc_cases cs).resolve_left hP
    have hxy : y = x := by rw [hx, hy] at hlast; simpa using hlast.symm
    subst hxy
    rw [ec, hy, pathBase_render (hpb y (by simp [hx]))])⟩, by simp⟩ hfs w2 hhas w3 hg
  have e2 : nodeOf (dropBody oc e) = ⟨some (cleaned oc e).header, (cleaned oc e).body⟩ := by
    unfold dropBody cleaned; cases oc <;> rfl
  refine ⟨n0 + 3, S', fun n hn => (addEntry_le hn _ _).some h1, h2, ?_, ?_, hplain, ?_⟩
  · intro p l h
    rcases h3 p l h with h | ⟨h, h'⟩
    · exact .inl h
    · exact .inr ⟨h, h'⟩
  · intro V hv q hq
    rw [h4 q (.inr (visible_not_opq hq)), stepped_visible hv q hq, e2]
  · intro hq q
    rw [h4 q (.inl hq), e2]

end Squash
