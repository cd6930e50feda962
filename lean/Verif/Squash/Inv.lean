import Verif.Squash.FSLemmas
/-! The invariant of the file system while layers are loaded. -/
namespace Squash
open Go

/-- there is a node at that path -/
def FS.has (S : FS) (p : Path) : Prop := (S.get? p).isSome = true

/-- The invariant.  With `b` the layers contain no symlink to "/" (such a link makes the code use the empty key). -/
structure Inv (b : Bool) (S : FS) : Prop where
  nodup : (S.map (·.1)).Nodup
  root : S.has []
  closed : ∀ p c, S.has (p ++ [c]) → S.has p
  leaf : ∀ p, S.nonDir p = true → ∀ c, S.get? (p ++ [c]) = none
  keys : ∀ p, S.has p → ∀ c ∈ p, GoodKey c ∧ (b = true → c ≠ [])
  links : b = true → ∀ p l, S.link p = some l → clean l ≠ ['/']
  base : ∀ p c nd h, S.get? (p ++ [c]) = some nd → nd.header = some h → hasPrefix c whPrefix = true ∨ pathBase h.name = c

theorem nodup_filter {S : FS} (P : Path × Node → Bool) (h : (S.map (·.1)).Nodup) : ((S.filter P).map (·.1)).Nodup :=
  List.Nodup.sublist (List.Sublist.map _ List.filter_sublist) h

theorem nodup_put {S : FS} (h : (S.map (·.1)).Nodup) (p : Path) (n : Node) : ((S.put p n).map (·.1)).Nodup := by
  unfold FS.put
  rw [List.map_cons, List.nodup_cons]
  refine ⟨?_, nodup_filter _ h⟩
  intro hm
  rw [List.mem_map] at hm
  obtain ⟨e, he, e1⟩ := hm
  rw [List.mem_filter] at he
  simp [e1] at he

theorem nodup_unmark {S : FS} (h : (S.map (·.1)).Nodup) (f : Path) : ((unmark S f).map (·.1)).Nodup := by
  unfold unmark
  simp only
  split
  · split
    · exact nodup_filter _ h
    · exact nodup_filter _ h
  · exact nodup_filter _ h

theorem nodup_setFile {S : FS} (h : (S.map (·.1)).Nodup) (f : Path) (hd : Header) (b : Bytes) :
    ((setFile S f hd b).map (·.1)).Nodup :=
  nodup_unmark (nodup_filter _ (nodup_put h _ _)) _

theorem not_has {S : FS} {p : Path} : ¬ S.has p ↔ S.get? p = none := by
  unfold FS.has; cases S.get? p <;> simp

theorem has_of {S : FS} {p : Path} {n : Node} (h : S.get? p = some n) : S.has p := by unfold FS.has; rw [h]; rfl

theorem snoc_cases (p : Path) : p = [] ∨ ∃ q c, p = q ++ [c] := by
  rcases List.eq_nil_or_concat p with h | ⟨q, c, h⟩
  · exact .inl h
  · exact .inr ⟨q, c, by simpa using h⟩

theorem Inv.prefix {b : Bool} {S : FS} (h : Inv b S) {p q : Path} (hq : S.has (p ++ q)) : S.has p := by
  induction q generalizing p with
  | nil => simpa using hq
  | cons c q ih => exact h.closed p c (ih (by simpa using hq))

theorem Inv.noDesc {b : Bool} {S : FS} (h : Inv b S) {p : Path} (hp : ∀ c, S.get? (p ++ [c]) = none) {q : Path}
    (h1 : p <+: q) (h2 : q ≠ p) : S.get? q = none := by
  obtain ⟨t, rfl⟩ := h1
  cases t with
  | nil => simp at h2
  | cons c t =>
    rw [← not_has]
    intro hh
    have : S.has ((p ++ [c]) ++ t) := by simpa using hh
    exact not_has.mpr (hp c) (h.prefix this)

theorem Inv.dropLast {b : Bool} {S : FS} (h : Inv b S) {p : Path} (hp : S.has p) : S.has p.dropLast := by
  rcases snoc_cases p with rfl | ⟨q, c, rfl⟩
  · exact hp
  · rw [List.dropLast_concat]; exact h.closed q c hp

theorem prefix_snoc_snoc {p q : Path} {c d : Str} : (p ++ [c]) <+: (q ++ [d]) ↔ (p ++ [c] = q ++ [d]) ∨ (p ++ [c]) <+: q := by
  constructor
  · rintro ⟨t, ht⟩
    rcases snoc_cases t with rfl | ⟨t, x, rfl⟩
    · left; simpa using ht
    · right
      rw [← List.append_assoc] at ht
      exact ⟨t, (List.append_inj' ht rfl).1⟩
  · rintro (h | h)
    · rw [h]; exact List.prefix_refl _
    · exact h.trans (List.prefix_append _ _)

theorem snoc_not_prefix {p : Path} {c : Str} : ¬ (p ++ [c]) <+: p := fun h => by
  have := h.length_le
  rw [List.length_append, List.length_singleton] at this
  omega

/-! ### the effect of `Set` -/

/-- what the end of `Set` leaves in place (187-201), for a node whose key is an ordinary name -/
theorem get?_unmark {S : FS} {p : Path} {c : Str} (hp : ∀ d ∈ p, GoodKey d) (hc : Plain c) (q : Path) :
    (unmark S (p ++ [c])).get? q =
      if hasPrefix c whPrefix = true then
        if c = opqName then (if p <+: q ∧ q ≠ p ∧ ¬ (p ++ [c]) <+: q then none else S.get? q)
        else (if (p ++ [trimPrefix c whPrefix]) <+: q then none else S.get? q)
      else (if (p ++ [whPrefix ++ c]) <+: q then none else S.get? q) := by
  unfold unmark
  simp only
  rw [base_nodeName hp hc, List.dropLast_concat]
  split
  · split
    · rw [get?_delOthers]
    · rw [get?_delChild]
  · rw [get?_delChild]

/-- the node of `f` itself, and its ancestors, survive the end of `Set` -/
theorem get?_unmark_self {S : FS} {p : Path} {c : Str} (hp : ∀ d ∈ p, GoodKey d) (hc : Plain c) :
    (unmark S (p ++ [c])).get? (p ++ [c]) = S.get? (p ++ [c]) := by
  rw [get?_unmark hp hc]
  split
  · split
    · rw [if_neg]; simp
    · rw [if_neg]
      intro h
      have := List.append_cancel_left (h.eq_of_length (by simp))
      rw [List.cons.injEq] at this
      have h2 := congrArg List.length this.1
      rename_i h3 _
      unfold trimPrefix at h2
      rw [if_pos h3, List.length_drop] at h2
      have h4 : 0 < c.length := List.length_pos_iff.mpr hc.1
      have h5 : whPrefix.length = 4 := rfl
      omega
  · rw [if_neg]
    intro h
    have := List.append_cancel_left (h.eq_of_length (by simp))
    rw [List.cons.injEq] at this
    have h2 := congrArg List.length this.1
    rw [List.length_append] at h2
    have h5 : whPrefix.length = 4 := rfl
    omega

theorem get?_unmark_le {S : FS} {f q : Path} : (unmark S f).get? q = S.get? q ∨ (unmark S f).get? q = none := by
  unfold unmark
  simp only
  split
  · split
    · rw [get?_delOthers]; split <;> simp
    · rw [get?_delChild]; split <;> simp
  · rw [get?_delChild]; split <;> simp

/-- everything deleted by the end of `Set` is deleted with all that is below it, and it is never an ancestor of `f` -/
theorem get?_unmark_closed {S : FS} {f p : Path} {c : Str} (h : (unmark S f).get? (p ++ [c]) ≠ none)
    (hs : S.has p) : (unmark S f).has p := by
  unfold unmark at h ⊢
  simp only at h ⊢
  have key : ∀ {d : Path} {k : Str}, (S.delChild d k).get? (p ++ [c]) ≠ none → (S.delChild d k).has p := by
    intro d k h
    rw [get?_delChild] at h
    unfold FS.has
    rw [get?_delChild]
    split at h
    · exact absurd rfl h
    · rename_i h1
      rw [if_neg]
      · exact hs
      · exact fun h2 => h1 (h2.trans (List.prefix_append _ _))
  split at h
  · split at h
    · rename_i h1 h2
      rw [if_pos h1, if_pos h2]
      rw [get?_delOthers] at h
      unfold FS.has
      rw [get?_delOthers]
      split at h
      · exact absurd rfl h
      · rename_i h3
        rw [if_neg]
        · exact hs
        · rintro ⟨a, b, c'⟩
          apply h3
          refine ⟨a.trans (List.prefix_append _ _), ?_, ?_⟩
          · intro e
            have := a.length_le
            rw [← e] at this
            simp at this; omega
          · intro h4
            rcases prefix_snoc_snoc.mp h4 with h5 | h5
            · have := List.append_inj' h5 rfl
              exact b this.1.symm
            · exact c' h5
    · rename_i h1 h2
      rw [if_pos h1, if_neg h2]; exact key h
  · rename_i h1
    rw [if_neg h1]; exact key h

/-! ### operations that keep the invariant -/

theorem nonDir_eq {S T : FS} {p : Path} (h : S.get? p = T.get? p) : S.nonDir p = T.nonDir p := by
  unfold FS.nonDir; rw [h]

theorem link_eq {S T : FS} {p : Path} (h : S.get? p = T.get? p) : S.link p = T.link p := by
  unfold FS.link; rw [h]

/-- deleting subtrees -/
theorem Inv.sub {b : Bool} {S T : FS} (h : Inv b S) (hn : (T.map (·.1)).Nodup) (hr : T.has [])
    (hle : ∀ q, T.get? q = S.get? q ∨ T.get? q = none) (hcl : ∀ p c, T.has (p ++ [c]) → S.has p → T.has p) : Inv b T := by
  have up : ∀ {q}, T.has q → T.get? q = S.get? q := by
    intro q hq
    rcases hle q with e | e
    · exact e
    · exact absurd e (fun e => not_has.mpr e hq)
  refine ⟨hn, hr, ?_, ?_, ?_, ?_, ?_⟩
  · intro p c hp
    exact hcl p c hp (h.closed p c (by unfold FS.has; rw [← up hp]; exact hp))
  · intro p hp c
    have hhas : T.has p := by
      unfold FS.nonDir at hp
      cases e : T.get? p with
      | none => rw [e] at hp; simp at hp
      | some n => exact has_of e
    rw [nonDir_eq (up hhas)] at hp
    rcases hle (p ++ [c]) with e | e
    · rw [e, h.leaf p hp]
    · exact e
  · intro p hp
    exact h.keys p (by unfold FS.has; rw [← up hp]; exact hp)
  · intro hb p l hl
    have hhas : T.has p := by
      unfold FS.link at hl
      cases e : T.get? p with
      | none => rw [e] at hl; simp at hl
      | some n => exact has_of e
    rw [link_eq (up hhas)] at hl
    exact h.links hb p l hl
  · intro p c nd hd e1 e2
    exact h.base p c nd hd (by rw [← up (has_of e1)]; exact e1) e2

theorem Inv.unmark {b : Bool} {S : FS} {f : Path} (h : Inv b S) (hr : (unmark S f).has []) : Inv b (unmark S f) :=
  h.sub (nodup_unmark h.nodup f) hr (fun _ => get?_unmark_le) (fun p c hp hs => by
    refine get?_unmark_closed (c := c) (fun e => not_has.mpr e hp) hs)

theorem unmark_root {S : FS} (f : Path) (h : S.has []) : (Squash.unmark S f).has [] := by
  unfold Squash.unmark FS.has
  simp only
  split
  · split
    · rw [get?_delOthers, if_neg]
      · exact h
      · rintro ⟨a, b, _⟩
        exact b (List.prefix_nil.mp a).symm
    · rw [get?_delChild, if_neg]
      · exact h
      · intro a; simpa using List.prefix_nil.mp a
  · rw [get?_delChild, if_neg]
    · exact h
    · intro a; simpa using List.prefix_nil.mp a

/-- replacing a node -/
theorem Inv.put {b : Bool} {S : FS} {f : Path} (h : Inv b S) (hf : S.has f) (nd : Node)
    (hleaf : nd.nonDir = true → ∀ c, S.get? (f ++ [c]) = none)
    (hlink : b = true → ∀ l, nd.link = some l → clean l ≠ ['/'])
    (hbase : ∀ p c hd, f = p ++ [c] → nd.header = some hd → hasPrefix c whPrefix = true ∨ pathBase hd.name = c) :
    Inv b (S.put f nd) := by
  have hh : ∀ {q}, (S.put f nd).has q ↔ S.has q := by
    intro q
    unfold FS.has
    rw [get?_put]
    split
    · rename_i e; rw [e]; simp; exact hf
    · rfl
  refine ⟨nodup_put h.nodup f nd, hh.mpr h.root, ?_, ?_, ?_, ?_, ?_⟩
  · intro p c hp; exact hh.mpr (h.closed p c (hh.mp hp))
  · intro p hp c
    rw [← not_has, hh, not_has]
    unfold FS.nonDir at hp
    rw [get?_put] at hp
    by_cases e : p = f
    · rw [if_pos e] at hp; rw [e]; exact hleaf hp c
    · rw [if_neg e] at hp; exact h.leaf p hp c
  · intro p hp; exact h.keys p (hh.mp hp)
  · intro hb p l hl
    unfold FS.link at hl
    rw [get?_put] at hl
    by_cases e : p = f
    · rw [if_pos e] at hl; exact hlink hb l hl
    · rw [if_neg e] at hl; exact h.links hb p l hl
  · intro p c n hd e1 e2
    rw [get?_put] at e1
    by_cases e : p ++ [c] = f
    · rw [if_pos e] at e1; injection e1 with e1; subst e1; exact hbase p c hd e.symm e2
    · rw [if_neg e] at e1; exact h.base p c n hd e1 e2

/-- adding a child without header -/
theorem Inv.child {b : Bool} {S : FS} {f : Path} {c : Str} (h : Inv b S) (hf : S.has f) (hd : S.nonDir f = false)
    (hno : S.get? (f ++ [c]) = none) (hc : GoodKey c) (hb : b = true → c ≠ []) : Inv b (S.put (f ++ [c]) ⟨none, []⟩) := by
  have hh : ∀ {q}, (S.put (f ++ [c]) ⟨none, []⟩).has q ↔ q = f ++ [c] ∨ S.has q := by
    intro q
    unfold FS.has
    rw [get?_put]
    split
    · rename_i e; simp [e]
    · rename_i e; simp [e]
  have hchild : ∀ x, S.get? ((f ++ [c]) ++ [x]) = none := by
    intro x; rw [← not_has]; intro hx; exact not_has.mpr hno (h.closed _ _ hx)
  refine ⟨nodup_put h.nodup _ _, hh.mpr (.inr h.root), ?_, ?_, ?_, ?_, ?_⟩
  · intro p x hp
    rcases hh.mp hp with e | e
    · rw [(List.append_inj' e rfl).1]; exact hh.mpr (.inr hf)
    · exact hh.mpr (.inr (h.closed p x e))
  · intro p hp x
    unfold FS.nonDir at hp
    rw [get?_put] at hp
    rw [get?_put]
    by_cases e : p = f ++ [c]
    · rw [if_pos e] at hp; simp [Node.nonDir] at hp
    · rw [if_neg e] at hp
      have hp' : S.nonDir p = true := hp
      rw [if_neg]
      · exact h.leaf p hp' x
      · intro e2
        rw [(List.append_inj' e2 rfl).1, hd] at hp'
        exact absurd hp' (by simp)
  · intro p hp x hx
    rcases hh.mp hp with e | e
    · rw [e] at hx
      rcases List.mem_append.mp hx with hx | hx
      · exact h.keys f hf x hx
      · rw [List.mem_singleton.mp hx]; exact ⟨hc, hb⟩
    · exact h.keys p e x hx
  · intro hb' p l hl
    unfold FS.link at hl
    rw [get?_put] at hl
    by_cases e : p = f ++ [c]
    · rw [if_pos e] at hl; simp [Node.link] at hl
    · rw [if_neg e] at hl; exact h.links hb' p l hl
  · intro p x n hdr e1 e2
    rw [get?_put] at e1
    by_cases e : p ++ [x] = f ++ [c]
    · rw [if_pos e] at e1; injection e1 with e1; subst e1; simp at e2
    · rw [if_neg e] at e1; exact h.base p x n hdr e1 e2

theorem Inv.delBelow {b : Bool} {S : FS} {f : Path} (h : Inv b S) : Inv b (S.delBelow f) := by
  refine h.sub (nodup_filter _ h.nodup) ?_ ?_ ?_
  · unfold FS.has; rw [get?_delBelow, if_neg]
    · exact h.root
    · rintro ⟨a, b⟩; exact b (List.prefix_nil.mp a).symm
  · intro q; rw [get?_delBelow]; split <;> simp
  · intro p c hp hs
    unfold FS.has at hp ⊢
    rw [get?_delBelow] at hp ⊢
    split at hp
    · simp at hp
    · rename_i h1
      rw [if_neg]
      · exact hs
      · rintro ⟨a, b⟩
        apply h1
        refine ⟨a.trans (List.prefix_append _ _), ?_⟩
        intro e
        have := a.length_le
        rw [← e] at this
        simp at this; omega

theorem Inv.congr {b : Bool} {S T : FS} (h : Inv b S) (hn : (T.map (·.1)).Nodup) (e : ∀ q, T.get? q = S.get? q) : Inv b T :=
  h.sub hn (by unfold FS.has; rw [e]; exact h.root) (fun q => .inl (e q)) (fun p c _ hs => by unfold FS.has; rw [e]; exact hs)

/-- what is required of an entry given to `Set` at node `f` -/
structure EntryOK (b : Bool) (f : Path) (hdr : Header) : Prop where
  key : f = [] ∨ ∃ p c, f = p ++ [c] ∧ Plain c ∧ (hasPrefix c whPrefix = true ∨ pathBase hdr.name = c)
  link : b = true → hdr.typeflag = typeSymlink → clean hdr.linkname ≠ ['/']

theorem EntryOK.hbase {b : Bool} {f : Path} {hdr : Header} (h : EntryOK b f hdr) (bd : Bytes) :
    ∀ p c hd, f = p ++ [c] → (⟨some hdr, bd⟩ : Node).header = some hd → hasPrefix c whPrefix = true ∨ pathBase hd.name = c := by
  intro p c hd e1 e2
  injection e2 with e2; subst e2
  rcases h.key with e | ⟨p', c', e, _, h2⟩
  · rw [e] at e1; simp at e1
  · rw [e] at e1
    have := List.append_inj' e1 rfl
    simp only [List.cons.injEq, and_true] at this
    rw [← this.2]; exact h2

theorem EntryOK.hlink {b : Bool} {f : Path} {hdr : Header} (h : EntryOK b f hdr) (bd : Bytes) :
    b = true → ∀ l, (⟨some hdr, bd⟩ : Node).link = some l → clean l ≠ ['/'] := by
  intro hb l hl
  simp only [Node.link] at hl
  split at hl
  · rename_i ht; injection hl with hl; rw [← hl]; exact h.link hb ht
  · simp at hl

theorem get?_setPut {S : FS} {f : Path} {nd : Node} (q : Path) :
    ((S.put f nd).delBelow f).get? q = ((S.delBelow f).put f nd).get? q := by
  rw [get?_delBelow, get?_put, get?_put, get?_delBelow]
  by_cases e : q = f
  · rw [if_pos e, if_pos e, if_neg (fun h => h.2 e)]
  · rw [if_neg e, if_neg e]

theorem Inv.setFile {b : Bool} {S : FS} {f : Path} {hdr : Header} (h : Inv b S) (hf : S.has f) (bd : Bytes)
    (he : EntryOK b f hdr) : Inv b (setFile S f hdr bd) := by
  have h1 : Inv b ((S.delBelow f).put f ⟨some hdr, bd⟩) := by
    refine h.delBelow.put ?_ _ ?_ (he.hlink bd) (he.hbase bd)
    · unfold FS.has; rw [get?_delBelow, if_neg (by simp)]; exact hf
    · intro _ c
      rw [get?_delBelow, if_pos ⟨List.prefix_append _ _, by simp⟩]
  have h2 : Inv b ((S.put f ⟨some hdr, bd⟩).delBelow f) :=
    h1.congr (nodup_filter _ (nodup_put h.nodup _ _)) (fun q => get?_setPut q)
  exact h2.unmark (unmark_root f h2.root)

theorem Inv.putDir {b : Bool} {S : FS} {f : Path} {hdr : Header} (h : Inv b S) (hf : S.has f) (bd : Bytes)
    (he : EntryOK b f hdr) (hd : hdr.typeflag = typeDir) : Inv b (S.put f ⟨some hdr, bd⟩) :=
  h.put hf _ (fun hn => by simp [Node.nonDir, hd] at hn) (he.hlink bd) (he.hbase bd)

end Squash
