import Verif.Squash.LazyLemmas
/-! Which nodes have a map of children when `Load` returns. -/
namespace Squash.Lazy
open Go Squash

/-- only directories have maps, and what has something in it has a map -/
structure MapsOK (T : Mem) : Prop where
  dirs : ∀ p ∈ T.2, T.1.has p ∧ T.1.nonDir p = false
  made : ∀ p c, T.1.has (p ++ [c]) → p ∈ T.2

theorem nonDir_of {S S' : FS} {p : Path} (h : S'.get? p = S.get? p) (hn : S.nonDir p = false) : S'.nonDir p = false := by
  rw [nonDir_eq h]; exact hn

theorem has_eq {S S' : FS} {p : Path} (h : S'.get? p = S.get? p) : S'.has p ↔ S.has p := by unfold FS.has; rw [h]

theorem MapsOK.del {T : Mem} (h : MapsOK T) {S : FS} {keep : Path → Bool} (hS : ∀ q, S.get? q = if keep q then T.1.get? q else none)
    (hk : ∀ p c, keep (p ++ [c]) = true → keep p = true) : MapsOK (S, T.2.filter keep) := by
  constructor
  · intro p hp
    obtain ⟨h1, h2⟩ := List.mem_filter.1 hp
    have e : S.get? p = T.1.get? p := by rw [hS, if_pos h2]
    exact ⟨(has_eq e).2 (h.dirs p h1).1, nonDir_of e (h.dirs p h1).2⟩
  · intro p c hp
    unfold FS.has at hp
    rw [hS] at hp
    split at hp
    · rename_i hc
      exact List.mem_filter.2 ⟨h.made p c hp, hk p c hc⟩
    · cases hp

theorem MapsOK.delChild {T : Mem} (h : MapsOK T) (d : Path) (k : Str) :
    MapsOK (T.1.delChild d k, T.2.filter fun p => !(d ++ [k]).isPrefixOf p) := by
  refine h.del (fun q => ?_) fun p c hk => ?_
  · rw [get?_delChild]
    by_cases e : (d ++ [k]) <+: q
    · rw [if_pos e, List.isPrefixOf_iff_prefix.2 e]; rfl
    · rw [if_neg e, if_pos]
      rw [Bool.not_eq_true', Bool.eq_false_iff]
      exact fun x => e (List.isPrefixOf_iff_prefix.1 x)
  · rw [Bool.not_eq_true', Bool.eq_false_iff, Ne, List.isPrefixOf_iff_prefix] at hk ⊢
    exact fun x => hk (x.trans (List.prefix_append _ _))

theorem MapsOK.delOthers {T : Mem} (h : MapsOK T) (d : Path) (k : Str) :
    MapsOK (T.1.delOthers d k, T.2.filter fun p => !(d.isPrefixOf p && decide (p ≠ d) && !(d ++ [k]).isPrefixOf p)) := by
  have iff : ∀ q : Path, (!(d.isPrefixOf q && decide (q ≠ d) && !(d ++ [k]).isPrefixOf q)) = true ↔
      ¬ (d <+: q ∧ q ≠ d ∧ ¬ (d ++ [k]) <+: q) := by
    intro q
    rw [Bool.not_eq_true', Bool.eq_false_iff, Ne, Bool.and_eq_true, Bool.and_eq_true, decide_eq_true_eq, Bool.not_eq_true',
      Bool.eq_false_iff, List.isPrefixOf_iff_prefix, Ne, Ne, List.isPrefixOf_iff_prefix, and_assoc]
  refine h.del (fun q => ?_) fun p c hk => ?_
  · rw [get?_delOthers]
    by_cases e : d <+: q ∧ q ≠ d ∧ ¬ (d ++ [k]) <+: q
    · rw [if_pos e, if_neg (fun x => (iff q).1 x e)]
    · rw [if_neg e, if_pos ((iff q).2 e)]
  · rw [iff] at hk ⊢
    rintro ⟨a, b, c'⟩
    apply hk
    refine ⟨a.trans (List.prefix_append _ _), ?_, ?_⟩
    · intro e
      have := a.length_le
      rw [← e] at this
      simp at this; omega
    · intro h4
      rcases prefix_snoc_snoc.mp h4 with h5 | h5
      · exact b (List.append_inj' h5 rfl).1.symm
      · exact c' h5

theorem MapsOK.unmark {T : Mem} (h : MapsOK T) (f : Path) : MapsOK (unmarkM T f) := by
  unfold unmarkM Squash.unmark
  simp only
  split
  · split
    · exact h.delOthers _ _
    · exact h.delChild _ _
  · exact h.delChild _ _

/-- a node that is there gets another header; if it is not a directory then, it has nothing in it and no map -/
theorem MapsOK.put {T : Mem} (h : MapsOK T) {f : Path} (hf : T.1.has f) (nd : Node) (hn : nd.nonDir = false ∨ f ∉ T.2) :
    MapsOK (T.1.put f nd, T.2) := by
  constructor
  · intro p hp
    obtain ⟨h1, h2⟩ := h.dirs p hp
    unfold FS.has FS.nonDir at *
    rw [get?_put]
    by_cases e : p = f
    · subst e
      simp only [if_true, Option.isSome_some, true_and]
      exact hn.resolve_right fun x => x hp
    · rw [if_neg e]
      exact ⟨h1, h2⟩
  · intro p c hp
    refine h.made p c ?_
    unfold FS.has at hp ⊢
    rw [get?_put] at hp
    split at hp
    · rename_i e; rw [e]; exact hf
    · exact hp

theorem MapsOK.clearFile {T : Mem} (h : MapsOK T) {f : Path} (hf : T.1.has f) (hdr : Header) (body : Bytes) :
    MapsOK ((T.1.put f ⟨some hdr, body⟩).delBelow f, T.2.filter fun p => !f.isPrefixOf p) := by
  constructor
  · intro p hp
    obtain ⟨h1, h2⟩ := List.mem_filter.1 hp
    rw [Bool.not_eq_true', Bool.eq_false_iff, Ne, List.isPrefixOf_iff_prefix] at h2
    have e : ((T.1.put f ⟨some hdr, body⟩).delBelow f).get? p = T.1.get? p := by
      rw [get?_delBelow, if_neg (fun x => h2 x.1), get?_put, if_neg]
      rintro rfl
      exact h2 (List.prefix_refl _)
    exact ⟨(has_eq e).2 (h.dirs p h1).1, nonDir_of e (h.dirs p h1).2⟩
  · intro p c hp
    unfold FS.has at hp
    rw [get?_delBelow, get?_put] at hp
    split at hp
    · cases hp
    · rename_i h3
      have hpc : T.1.has (p ++ [c]) := by
        split at hp
        · rename_i e; rw [e]; exact hf
        · exact hp
      refine List.mem_filter.2 ⟨h.made p c hpc, ?_⟩
      rw [Bool.not_eq_true', Bool.eq_false_iff, Ne, List.isPrefixOf_iff_prefix]
      intro x
      refine h3 ⟨x.trans (List.prefix_append _ _), fun e => ?_⟩
      have := x.length_le
      rw [← e] at this
      simp at this; omega

theorem MapsOK.setFile {T : Mem} (h : MapsOK T) {f : Path} (hf : T.1.has f) (hdr : Header) (body : Bytes) :
    MapsOK (setFileM T f hdr body) := (h.clearFile hf hdr body).unmark f

/-! ### what has a map has something in it -/

theorem prefix_of_snoc {d p : Path} {c : Str} (h : d <+: p ++ [c]) (hne : p ++ [c] ≠ d) : d <+: p := by
  rcases snoc_cases d with rfl | ⟨d, k, rfl⟩
  · exact List.nil_prefix
  · rcases prefix_snoc_snoc.mp h with h | h
    · exact absurd h.symm hne
    · exact h

/-- the end of `Set` deletes something in the directory of the file only -/
theorem unmark_gone {S : FS} {f p : Path} {c : Str} (h : (Squash.unmark S f).get? (p ++ [c]) = none) (hs : S.has (p ++ [c]))
    (hp : (Squash.unmark S f).has p) : p = f.dropLast := by
  have child : ∀ {d : Path} {k : Str}, (S.delChild d k).get? (p ++ [c]) = none → (S.delChild d k).has p → p = d := by
    intro d k h hp
    unfold FS.has at hp
    rw [get?_delChild] at h hp
    split at h
    · rename_i h1
      split at hp
      · cases hp
      · rename_i h2
        rcases prefix_snoc_snoc.mp h1 with h3 | h3
        · exact (List.append_inj' h3 rfl).1.symm
        · exact absurd h3 h2
    · exact absurd h fun e => not_has.2 e hs
  unfold Squash.unmark at h hp
  simp only at h hp
  split at h
  · rename_i h0
    rw [if_pos h0] at hp
    split at h
    · rename_i h1
      rw [if_pos h1] at hp
      unfold FS.has at hp
      rw [get?_delOthers] at h hp
      split at h
      · rename_i h2
        split at hp
        · cases hp
        · rename_i h3
          refine Classical.byContradiction fun hne => h3 ⟨prefix_of_snoc h2.1 h2.2.1, hne, fun x => h2.2.2 (x.trans (List.prefix_append _ _))⟩
      · exact absurd h fun e => not_has.2 e hs
    · rename_i h1
      rw [if_neg h1] at hp
      exact child h hp
  · rename_i h0
    rw [if_neg h0] at hp
    exact child h hp

/-- what has a map has something in it; the root may have nothing -/
def Full (T : Mem) : Prop := ∀ p ∈ T.2, p ≠ [] → ∃ c, T.1.has (p ++ [c])

/-- where `Set` is called: the root, or a node with an ordinary name -/
def Named (f : Path) : Prop := f = [] ∨ ∃ p c, f = p ++ [c] ∧ Plain c

theorem Full.unmark {T : Mem} (h : Full T) (hm : MapsOK T) {f : Path} (hi : Inv false T.1) (hf : T.1.has f) (hn : Named f) :
    Full (unmarkM T f) := by
  intro p hp hne
  obtain ⟨h1, -⟩ := (hm.unmark f).dirs p hp
  have hpT : p ∈ T.2 := by
    unfold unmarkM at hp
    simp only at hp
    split at hp
    · split at hp
      · exact (List.mem_filter.1 hp).1
      · exact (List.mem_filter.1 hp).1
    · exact (List.mem_filter.1 hp).1
  obtain ⟨c, hc⟩ := h p hpT hne
  have hU : (unmarkM T f).1 = Squash.unmark T.1 f := rfl
  rw [hU] at h1 ⊢
  cases e : (Squash.unmark T.1 f).get? (p ++ [c]) with
  | some nd => exact ⟨c, has_of e⟩
  | none =>
    have hd := unmark_gone e hc h1
    rcases hn with rfl | ⟨q, x, rfl, hx⟩
    · exact absurd hd hne
    · rw [List.dropLast_concat] at hd
      subst hd
      refine ⟨x, (has_eq (get?_unmark_self (fun d hd => (hi.keys _ hf d (List.mem_append_left _ hd)).1) hx)).2 hf⟩

theorem Full.put {T : Mem} (h : Full T) {f : Path} (nd : Node) : Full (T.1.put f nd, T.2) := by
  intro p hp hne
  obtain ⟨c, hc⟩ := h p hp hne
  refine ⟨c, ?_⟩
  unfold FS.has at hc ⊢
  rw [get?_put]
  split
  · rfl
  · exact hc

theorem Full.setFile {T : Mem} (h : Full T) (hm : MapsOK T) {f : Path} (hi : Inv false T.1) (hf : T.1.has f) (hdr : Header) (body : Bytes)
    (he : EntryOK false f hdr) : Full (setFileM T f hdr body) := by
  have hi2 : Inv false ((T.1.put f ⟨some hdr, body⟩).delBelow f) := by
    have h1 : Inv false ((T.1.delBelow f).put f ⟨some hdr, body⟩) := by
      refine hi.delBelow.put ?_ _ ?_ (he.hlink body) (he.hbase body)
      · unfold FS.has; rw [get?_delBelow, if_neg (by simp)]; exact hf
      · intro _ c
        rw [get?_delBelow, if_pos ⟨List.prefix_append _ _, by simp⟩]
    exact h1.congr (nodup_filter _ (nodup_put hi.nodup _ _)) (fun q => get?_setPut q)
  refine Full.unmark ?_ (MapsOK.clearFile hm hf hdr body) hi2 ?_ ?_
  · intro p hp hne
    obtain ⟨h1, h2⟩ := List.mem_filter.1 hp
    rw [Bool.not_eq_true', Bool.eq_false_iff, Ne, List.isPrefixOf_iff_prefix] at h2
    obtain ⟨c, hc⟩ := h p h1 hne
    refine ⟨c, ?_⟩
    unfold FS.has
    rw [get?_delBelow, if_neg, get?_put]
    · split
      · rfl
      · exact hc
    · exact fun x => h2 (prefix_of_snoc x.1 x.2)
  · unfold FS.has; rw [get?_delBelow, if_neg (by simp), get?_put, if_pos rfl]; rfl
  · rcases he.key with h | ⟨p, c, h1, h2, -⟩
    · exact .inl h
    · exact .inr ⟨p, c, h1, h2⟩

/-- what holds while entries are looked up -/
structure Held (T : Mem) (f : Path) : Prop where
  inv : Inv false T.1
  has : T.1.has f
  maps : MapsOK T
  full : Full T

theorem Held.root {T : Mem} {f : Path} (h : Held T f) : Held T [] := ⟨h.inv, h.inv.root, h.maps, h.full⟩
theorem Held.up {T : Mem} {f : Path} (h : Held T f) : Held T f.dropLast := ⟨h.inv, h.inv.dropLast h.has, h.maps, h.full⟩
theorem Held.step {T : Mem} {f : Path} (h : Held T f) (create : Bool) : Step false create T.1 T.1 f := ⟨h.inv, h.has, fun _ h => h, fun _ => rfl⟩

theorem erase_ok {α : Type} {x : Res (Mem × α)} {x' : Res (FS × α)} (h : erase x = x') {T : Mem} {a : α} (e : x = some (.ok (T, a))) :
    x' = some (.ok (T.1, a)) := by rw [← h, e]; rfl
theorem erase1_ok {x : Res Mem} {x' : Res FS} (h : erase1 x = x') {T : Mem} (e : x = some (.ok T)) :
    x' = some (.ok T.1) := by rw [← h, e]; rfl

theorem walk_held {g : Mem → Path → Str → Bool → Res (Mem × Path)}
    (hg : ∀ T d c fl T' r, Held T d → '/' ∉ c → g T d c fl = some (.ok (T', r)) → Held T' r) (fl : Bool) :
    ∀ (cs : List Str) T d T' r, Held T d → (∀ c ∈ cs, '/' ∉ c) → walkM g T d cs fl = some (.ok (T', r)) → Held T' r
  | [], T, d, T', r, hp, _, h => by
    simp only [walkM, Option.some.injEq, Except.ok.injEq, Prod.mk.injEq] at h
    rw [← h.1, ← h.2]; exact hp
  | [c], T, d, T', r, hp, he, h => hg T d c fl T' r hp (he c (by simp)) h
  | c :: c2 :: cs, T, d, T', r, hp, he, h => by
    rw [walkM] at h
    · obtain ⟨y, e, h⟩ := bind_ok.mp h
      exact walk_held hg fl (c2 :: cs) _ _ _ _ (hg T d c false _ _ hp (he c (by simp)) e) (fun x hx => he x (by simp [hx])) h
    · simp

theorem fsGet_held {g : Mem → Path → Str → Bool → Res (Mem × Path)}
    (hg : ∀ T d c fl T' r, Held T d → '/' ∉ c → g T d c fl = some (.ok (T', r)) → Held T' r) {T : Mem} {d : Path} {l : Str} {fl : Bool}
    {T' : Mem} {r : Path} (hp : Held T d) (h : fsGetWithM g T d l fl = some (.ok (T', r))) : Held T' r := by
  unfold fsGetWithM at h
  simp only at h
  split at h
  · exact walk_held hg fl _ _ _ _ _ hp.root (fun c hc => split_no_sep hc) h
  · exact walk_held hg fl _ _ _ _ _ hp (fun c hc => split_no_sep hc) h

theorem resolve_held {fg : Mem → Path → Str → Res (Mem × Path)}
    (hfg : ∀ T d l T' t, Held T d → fg T d l = some (.ok (T', t)) → Held T' t) :
    ∀ (k : Nat) T stack ret T' r, Held T ret → resolveM fg k T stack ret = some (.ok (T', r)) → Held T' r
  | 0, _, _, _, _, _, _, h => by cases h
  | k + 1, T, stack, ret, T', r, hp, h => by
    rw [resolveM] at h
    cases e : T.1.link ret with
    | none =>
      rw [e] at h
      simp only [Option.some.injEq, Except.ok.injEq, Prod.mk.injEq] at h
      rw [← h.1, ← h.2]; exact hp
    | some l =>
      rw [e] at h
      simp only at h
      split at h
      · cases h
      · obtain ⟨y, e2, h⟩ := bind_ok.mp h
        exact resolve_held hfg k _ _ _ _ _ (hfg _ _ _ _ _ hp.up e2) h

theorem makeDir_held {n : Nat} (hget : ∀ T f c T' r, Held T f → '/' ∉ c → getM n T f c true true = some (.ok (T', r)) → Held T' r)
    {create : Bool} {T : Mem} {f : Path} {T' : Mem} (hp : Held T f)
    (h : makeDirM (fun T f => getM n T f opqName true true) create T f = some (.ok T')) : Held T' f ∧ T'.1.nonDir f = false := by
  have h0 := erase1_ok (makeDir_erase (g' := fun S f => get n S f opqName true true) (fun T d => get_erase n T d _ _ _) create T f) h
  obtain ⟨hs, hn⟩ := makeDir_pres (hp.step create) h0
  suffices hk : MapsOK T' ∧ Full T' from ⟨⟨hs.inv, hs.has, hk.1, hk.2⟩, hn⟩
  unfold makeDirM at h
  split at h
  · rename_i hnd
    split at h
    · cases h
    · obtain ⟨⟨T1, r⟩, e1, h⟩ := bind_ok.mp h
      simp only [Option.some.injEq, Except.ok.injEq] at h
      subst h
      have hf : f ∉ T.2 := fun hx => by rw [(hp.maps.dirs f hx).2] at hnd; cases hnd
      have hh : Held (T.1.put f ⟨none, []⟩, T.2) f := by
        refine ⟨hp.inv.put hp.has _ (fun x => ?_) (fun x => (nomatch x)) fun _ _ _ _ x => (nomatch x), ?_, hp.maps.put hp.has _ (.inr hf),
          hp.full.put _⟩
        · cases x
        · unfold FS.has; rw [get?_put, if_pos rfl]; rfl
      have h1 := hget _ _ _ _ _ hh (by decide) e1
      have hr : EntryOK false r opqHeader := by
        have e2 := erase_ok (get_erase n _ _ _ _ _) e1
        rcases get_opq_cases (S := T.1.put f ⟨none, []⟩) (f := f) (by unfold FS.nonDir; rw [get?_put, if_pos rfl]; rfl)
          (fun c => by rw [get?_put, if_neg (by simp)]; exact hp.inv.leaf f hnd c) n with e3 | e3
        · rw [e3] at e2; cases e2
        · rw [e3] at e2
          simp only [Option.some.injEq, Except.ok.injEq, Prod.mk.injEq] at e2
          rw [← e2.2]
          exact entryOK_opq false f
      exact ⟨h1.maps.setFile h1.has _ _, h1.full.setFile h1.maps h1.inv h1.has _ _ hr⟩
  · simp only [Option.some.injEq, Except.ok.injEq] at h
    subst h
    exact ⟨hp.maps, hp.full⟩

theorem child_held {create : Bool} {T : Mem} {f : Path} {c : Str} {T' : Mem} {r : Path} (hp : Held T f) (hn : T.1.nonDir f = false)
    (hg : GoodKey c) (h : childM create T f c = some (.ok (T', r))) : Held T' r := by
  have h0 := erase_ok (child_erase create T f c) h
  obtain ⟨hs, -⟩ := child_pres (hp.step create) hn hg (fun x => (nomatch x)) h0
  suffices hk : MapsOK T' ∧ Full T' from ⟨hs.inv, hs.has, hk.1, hk.2⟩
  unfold childM at h
  obtain ⟨⟨S, r'⟩, e1, h⟩ := bind_ok.mp h
  simp only [Option.some.injEq, Except.ok.injEq, Prod.mk.injEq] at h
  obtain ⟨rfl, rfl⟩ := h
  unfold child at e1
  cases hk : T.1.get? (f ++ [c]) with
  | some nd =>
    rw [hk] at e1
    simp only [Option.some.injEq, Except.ok.injEq, Prod.mk.injEq] at e1
    obtain ⟨rfl, rfl⟩ := e1
    refine ⟨?_, fun p hm hne => ?_⟩
    rotate_left
    · rcases List.mem_cons.1 hm with rfl | hm
      · exact ⟨c, has_of hk⟩
      · exact hp.full p hm hne
    constructor
    · intro p hm
      rcases List.mem_cons.1 hm with rfl | hm
      · exact ⟨hp.has, hn⟩
      · exact hp.maps.dirs p hm
    · exact fun p x hx => List.mem_cons_of_mem _ (hp.maps.made p x hx)
  | none =>
    rw [hk] at e1
    cases create with
    | false => cases e1
    | true =>
      simp only [if_true, Option.some.injEq, Except.ok.injEq, Prod.mk.injEq] at e1
      obtain ⟨rfl, rfl⟩ := e1
      have same : ∀ p, T.1.has p → (T.1.put (f ++ [c]) ⟨none, []⟩).get? p = T.1.get? p := by
        intro p hx
        rw [get?_put, if_neg]
        rintro rfl
        exact not_has.2 hk hx
      refine ⟨?_, fun p hm hne => ?_⟩
      rotate_left
      · rcases List.mem_cons.1 hm with rfl | hm
        · exact ⟨c, by unfold FS.has; rw [get?_put, if_pos rfl]; rfl⟩
        · obtain ⟨x, hx⟩ := hp.full p hm hne
          exact ⟨x, (has_eq (same _ hx)).2 hx⟩
      constructor
      · intro p hm
        rcases List.mem_cons.1 hm with rfl | hm
        · exact ⟨(has_eq (same _ hp.has)).2 hp.has, nonDir_of (same _ hp.has) hn⟩
        · obtain ⟨h1, h2⟩ := hp.maps.dirs p hm
          exact ⟨(has_eq (same _ h1)).2 h1, nonDir_of (same _ h1) h2⟩
      · intro p x hx
        unfold FS.has at hx
        rw [get?_put] at hx
        split at hx
        · rename_i e
          rw [(List.append_inj' e rfl).1]
          exact List.mem_cons_self
        · exact List.mem_cons_of_mem _ (hp.maps.made p x hx)

theorem get_held : ∀ (n : Nat) (T : Mem) (f : Path) (c : Str) (create follow : Bool) (T' : Mem) (r : Path), Held T f → '/' ∉ c →
    getM n T f c create follow = some (.ok (T', r)) → Held T' r
  | 0, _, _, _, _, _, _, _, _, _, h => by cases h
  | n + 1, T, f, c, create, follow, T', r, hp, hc, h => by
    rw [getM] at h
    have hfg : ∀ fl T d l T' r, Held T d → fsGetWithM (fun T d c fl => getM n T d c create fl) T d l fl = some (.ok (T', r)) → Held T' r :=
      fun fl T d l T' r hp h => fsGet_held (fun T d c fl T' r => get_held n T d c create fl T' r) hp h
    obtain ⟨⟨T1, r1⟩, h1, h2⟩ := bind_ok.mp h
    have key : Held T1 r1 := by
      split at h1
      · simp only [Option.some.injEq, Except.ok.injEq, Prod.mk.injEq] at h1
        rw [← h1.1, ← h1.2]; exact hp.up
      · split at h1
        · simp only [Option.some.injEq, Except.ok.injEq, Prod.mk.injEq] at h1
          rw [← h1.1, ← h1.2]; exact hp
        · rename_i hdd hd
          obtain ⟨⟨T2, f2⟩, h3, h4⟩ := bind_ok.mp h1
          obtain ⟨T3, h5, h6⟩ := bind_ok.mp h4
          have hs2 : Held T2 f2 := by
            unfold enterM at h3
            cases e : T.1.link f with
            | none =>
              rw [e] at h3
              simp only [Option.some.injEq, Except.ok.injEq, Prod.mk.injEq] at h3
              rw [← h3.1, ← h3.2]; exact hp
            | some l =>
              rw [e] at h3
              exact hfg true _ _ _ _ _ hp.up h3
          obtain ⟨hs3, hn3⟩ := makeDir_held (fun T f c T' r => get_held n T f c true true T' r) hs2 h5
          exact child_held hs3 hn3 ⟨hc, hd, hdd⟩ h6
    simp only at h2
    split at h2
    · exact resolve_held (fun T d l T' t => hfg false T d l T' t) _ _ _ _ _ _ key h2
    · simp only [Option.some.injEq, Except.ok.injEq, Prod.mk.injEq] at h2
      rw [← h2.1, ← h2.2]; exact key

theorem set_maps {n : Nat} {T : Mem} {f : Path} {hdr : Header} {body : Bytes} {T' : Mem} (hp : Held T f) (he : EntryOK false f hdr)
    (h : setM n T f hdr body = some (.ok T')) : MapsOK T' ∧ Full T' := by
  have named : Named f := by
    rcases he.key with h | ⟨p, c, h1, h2, -⟩
    · exact .inl h
    · exact .inr ⟨p, c, h1, h2⟩
  unfold setM at h
  split at h
  · simp only [Option.some.injEq, Except.ok.injEq] at h
    rw [← h]; exact ⟨hp.maps.setFile hp.has _ _, hp.full.setFile hp.maps hp.inv hp.has _ _ he⟩
  · rename_i ht
    have ht : hdr.typeflag = typeDir := Classical.byContradiction ht
    have hm : MapsOK (T.1.put f ⟨some hdr, body⟩, T.2) := hp.maps.put hp.has _ (.inl (by simp [Node.nonDir, ht]))
    have hh : Held (T.1.put f ⟨some hdr, body⟩, T.2) f :=
      ⟨hp.inv.putDir hp.has body he ht, by unfold FS.has; rw [get?_put, if_pos rfl]; rfl, hm, hp.full.put _⟩
    split at h
    · rename_i hnd
      obtain ⟨⟨T1, r⟩, e1, h⟩ := bind_ok.mp h
      simp only [Option.some.injEq, Except.ok.injEq] at h
      subst h
      have h1 := get_held n _ _ _ _ _ _ _ hh (by decide) e1
      have e0 : (T.1.put f ⟨some hdr, body⟩).nonDir f = false := by
        unfold FS.nonDir; rw [get?_put, if_pos rfl]; simp [Node.nonDir, ht]
      have ec : ∀ c, (T.1.put f ⟨some hdr, body⟩).get? (f ++ [c]) = none := by
        intro c; rw [get?_put, if_neg (by simp)]; exact hp.inv.leaf f hnd c
      obtain ⟨hr, hT⟩ : r = f ++ [opqName] ∧ T1.1 = (T.1.put f ⟨some hdr, body⟩).put (f ++ [opqName]) ⟨none, []⟩ := by
        have e2 := erase_ok (get_erase n _ _ _ _ _) e1
        rcases get_opq_cases e0 ec n with e3 | e3
        · rw [e3] at e2; cases e2
        · rw [e3] at e2
          simp only [Option.some.injEq, Except.ok.injEq, Prod.mk.injEq] at e2
          exact ⟨e2.2.symm, e2.1.symm⟩
      subst hr
      have hm2 := h1.maps.setFile h1.has opqHeader []
      refine ⟨hm2.unmark f, Full.unmark (h1.full.setFile h1.maps h1.inv h1.has _ _ (entryOK_opq false f)) hm2
        (h1.inv.setFile h1.has [] (entryOK_opq false f)) ?_ named⟩
      have h2 := hh.inv.opq hh.has e0 ec
      have h3 : (setFileM T1 (f ++ [opqName]) opqHeader []).1 =
          Squash.setFile ((T.1.put f ⟨some hdr, body⟩).put (f ++ [opqName]) ⟨none, []⟩) (f ++ [opqName]) opqHeader [] := by rw [← hT]; rfl
      rw [h3]
      unfold FS.has
      rw [get?_opq (fun c hc => (hh.inv.keys f hh.has c hc).1) (fun q a b => hh.inv.noDesc ec a b), if_neg (by simp)]
      exact hh.has
    · simp only [Option.some.injEq, Except.ok.injEq] at h
      rw [← h]; exact ⟨hm.unmark f, hh.full.unmark hm hh.inv hh.has named⟩

theorem addEntry_maps {n : Nat} {T : Mem} {e : Entry} {T' : Mem} (hi : Inv false T.1) (hm : MapsOK T ∧ Full T)
    (he : ParsedOK false e) (h : addEntryM n T e = some (.ok T')) : MapsOK T' ∧ Full T' := by
  unfold addEntryM at h
  obtain ⟨⟨T1, r⟩, h1, h2⟩ := bind_ok.mp h
  have hh : Held T1 r := fsGet_held (fun T d c fl T' r => get_held n T d c true fl T' r) ⟨hi, hi.root, hm.1, hm.2⟩ h1
  have h0 := erase_ok (fsGet_erase (g' := fun S d c fl => get n S d c true fl) (fun T d c fl => get_erase n T d c true fl) T [] _ false) h1
  obtain ⟨s, en, eo⟩ := he.name
  rw [en] at h0
  obtain ⟨-, hr⟩ := fsGet_entry hi eo h0
  refine set_maps hh ⟨?_, he.link⟩ h2
  rcases hr with hr | ⟨p, c, e1, e2, e3⟩
  · exact .inl hr.1
  · exact .inr ⟨p, c, e1, e2, .inr (by rw [en]; exact e3)⟩

theorem addEntries_maps {n : Nat} : ∀ (es : List Entry) (T T' : Mem), Inv false T.1 → MapsOK T ∧ Full T →
    (∀ e ∈ es, ParsedOK false e) → addEntriesM n T es = some (.ok T') → MapsOK T' ∧ Full T'
  | [], T, T', _, hm, _, h => by
    simp only [addEntriesM, Option.some.injEq, Except.ok.injEq] at h
    rw [← h]; exact hm
  | e :: es, T, T', hi, hm, he, h => by
    rw [addEntriesM] at h
    obtain ⟨T1, h1, h2⟩ := bind_ok.mp h
    exact addEntries_maps es T1 T' (addEntry_pres hi (he e (by simp)) (erase1_ok (addEntry_erase n T e) h1))
      (addEntry_maps hi hm (he e (by simp)) h1) (fun x hx => he x (by simp [hx])) h2

theorem loadFrom_maps {n : Nat} {oc : Bool} : ∀ (ls : List (List Entry)) (T T' : Mem), Inv false T.1 → MapsOK T ∧ Full T →
    loadFromM n oc T ls = some (.ok T') → MapsOK T' ∧ Full T'
  | [], T, T', _, hm, h => by
    simp only [loadFromM, Option.some.injEq, Except.ok.injEq] at h
    rw [← h]; exact hm
  | l :: ls, T, T', hi, hm, h => by
    rw [loadFromM] at h
    cases hp : parseLayer oc l with
    | error x => rw [hp] at h; cases h
    | ok y =>
      obtain ⟨ws, fs⟩ := y
      rw [hp] at h
      simp only at h
      obtain ⟨p1, p2⟩ := parseLayer_ok (b := false) l ws fs (fun x => (nomatch x)) hp
      obtain ⟨T1, h1, h2⟩ := bind_ok.mp h
      obtain ⟨T2, h3, h4⟩ := bind_ok.mp h2
      have i1 := addEntries_pres _ _ _ hi p1 (erase1_ok (addEntries_erase n ws T) h1)
      have m1 := addEntries_maps _ _ _ hi hm p1 h1
      exact loadFrom_maps ls T2 T' (addEntries_pres _ _ _ i1 p2 (erase1_ok (addEntries_erase n fs T1) h3)) (addEntries_maps _ _ _ i1 m1 p2 h3) h4

theorem load_maps {n : Nat} {layers : List (List Entry)} {oc : Bool} {T : Mem} (h : loadM n layers oc = some (.ok T)) : MapsOK T ∧ Full T := by
  refine loadFrom_maps layers _ _ (inv_empty false) ⟨⟨fun p hp => absurd hp List.not_mem_nil, fun p c hx => ?_⟩, fun p hp => absurd hp List.not_mem_nil⟩ h
  unfold FS.has emptyFS FS.get? at hx
  rw [List.find?_cons_of_neg (by simp)] at hx
  cases hx

end Squash.Lazy
