import Verif.Squash.Fuel
import Verif.Squash.Spec
/-! C63, C64, C65: the shape of the loaded file system and of the squashed layer. -/
namespace Squash
open Go Spec

/-! ### the children of a node -/

theorem mem_childNames {S : FS} {p : Path} {c : Str} : c ∈ childNames S p ↔ S.has (p ++ [c]) := by
  unfold FS.has
  rw [get?_isSome_iff]
  unfold childNames
  rw [List.mem_filterMap, List.mem_map]
  constructor
  · rintro ⟨e, he, h⟩
    cases hl : e.1.getLast? with
    | none => rw [hl] at h; simp at h
    | some d =>
      rw [hl] at h
      simp only at h
      split at h
      · rename_i h1; injection h with h; subst h; exact ⟨e, he, h1⟩
      · simp at h
  · rintro ⟨e, he, h⟩
    refine ⟨e, he, ?_⟩
    rw [h]; simp

theorem nodup_childNames {S : FS} (h : (S.map (·.1)).Nodup) (p : Path) : (childNames S p).Nodup := by
  unfold childNames List.Nodup
  rw [List.pairwise_filterMap]
  unfold List.Nodup at h
  rw [List.pairwise_map] at h
  refine h.imp ?_
  intro a b hab c hc d hd e
  subst e
  apply hab
  have key : ∀ {x : Path × Node}, (match x.1.getLast? with
      | some c => if x.1 = p ++ [c] then some c else none
      | none => none) = some c → x.1 = p ++ [c] := by
    intro x hx
    cases hl : x.1.getLast? with
    | none => rw [hl] at hx; simp at hx
    | some d =>
      rw [hl] at hx
      simp only at hx
      split at hx
      · rename_i h1; injection hx with hx; rw [← hx]; exact h1
      · simp at hx
  rw [key hc, key hd]

theorem hasPrefix_iff {s p : Str} : hasPrefix s p = true ↔ p <+: s := by
  unfold hasPrefix; exact List.isPrefixOf_iff_prefix

theorem childLess_iff {c d : Str} : childLess c d = true ↔ sibBefore c d := by
  unfold childLess sibBefore isMarker
  simp only
  have h1 := hasPrefix_iff (s := c) (p := whPrefix)
  have h2 := hasPrefix_iff (s := d) (p := whPrefix)
  unfold whPrefix at h1 h2 ⊢
  cases e1 : hasPrefix c ".wh.".toList <;> cases e2 : hasPrefix d ".wh.".toList <;> rw [e1] at h1 <;> rw [e2] at h2 <;>
    simp only [← h1, ← h2, Bool.false_eq_true, if_false, Bool.and_false, Bool.not_false, Bool.and_true, Bool.not_true,
      if_true, decide_eq_true_eq] <;> simp

theorem childLess_total (a b : Str) (h1 : childLess a b = false) (h2 : childLess b a = false) : a = b := by
  rw [← Bool.not_eq_true, childLess_iff] at h1 h2
  unfold sibBefore at h1 h2
  by_cases ha : isMarker a <;> by_cases hb : isMarker b <;> simp [ha, hb] at h1 h2
  · exact List.le_antisymm h2 h1
  · exact List.le_antisymm h2 h1

theorem childLess_strict (l : List Str) : StrictWeak childLess (· ∈ l) := by
  refine ⟨?_, ?_, ?_⟩
  · intro a _
    rw [← Bool.not_eq_true, childLess_iff]
    rintro (h | h)
    · exact h.2 h.1
    · exact List.lt_irrefl a h.2
  · intro a b c _ _ _ h1 h2
    rw [childLess_iff] at h1 h2 ⊢
    unfold sibBefore at h1 h2 ⊢
    by_cases ha : isMarker a <;> by_cases hb : isMarker b <;> by_cases hc : isMarker c <;> simp [ha, hb, hc] at h1 h2 ⊢
    · exact List.lt_trans h1 h2
    · exact List.lt_trans h1 h2
  · intro a b c _ _ _ h1 h2 h3 h4
    have e1 := childLess_total a b h1 h2
    have e2 := childLess_total b c h3 h4
    subst e1; subst e2; exact ⟨h1, h1⟩

/-! ### the entries written -/

/-- what is required of the iteration orders of the maps -/
def PermOrder (order : Path → List Str → List Str) : Prop := ∀ p l, (order p l).Perm l

theorem mem_sorted {srt : (Str → Str → Bool) → List Str → List Str} (hs : SortSlice srt)
    {order : Path → List Str → List Str} (ho : PermOrder order) {S : FS} {p : Path} {c : Str} :
    c ∈ srt childLess (order p (childNames S p)) ↔ S.has (p ++ [c]) := by
  rw [((hs.perm _ _).trans (ho p _)).mem_iff, mem_childNames]

theorem mem_nodeEntry {S : FS} {p : Path} {e : Entry} : e ∈ nodeEntry S p ↔
    ∃ h b, S.get? p = some ⟨some h, b⟩ ∧
      e = ⟨{ h with name := if h.typeflag = typeDir then nodeName p ++ "/".toList else nodeName p }, b⟩ := by
  unfold nodeEntry
  cases hg : S.get? p with
  | none => simp
  | some nd =>
    obtain ⟨hd, b⟩ := nd
    cases hd with
    | none => simp
    | some h =>
      constructor
      · intro he; exact ⟨h, b, rfl, by simpa using he⟩
      · rintro ⟨h', b', e1, e2⟩
        simp only [Option.some.injEq, Node.mk.injEq] at e1
        rw [e1.1, e1.2]; simpa using e2

theorem mem_writeTo {srt : (Str → Str → Bool) → List Str → List Str}
    {order : Path → List Str → List Str} {S : FS} {e : Entry} :
    ∀ (n : Nat) (p : Path), e ∈ writeTo srt order S n p → ∃ q, e ∈ nodeEntry S (p ++ q) := by
  intro n
  induction n with
  | zero => intro p h; simp [writeTo] at h
  | succ n ih =>
    intro p h
    rw [writeTo, List.mem_append] at h
    rcases h with h | h
    · exact ⟨[], by simpa using h⟩
    · rw [List.mem_flatMap] at h
      obtain ⟨c, _, h⟩ := h
      obtain ⟨q, hq⟩ := ih _ h
      exact ⟨c :: q, by simpa using hq⟩

theorem le_foldl_max (l : FS) (m : Nat) :
    m ≤ l.foldl (fun m e => max m e.1.length) m ∧ ∀ e ∈ l, e.1.length ≤ l.foldl (fun m e => max m e.1.length) m := by
  induction l generalizing m with
  | nil => simp
  | cons a l ih =>
    obtain ⟨h1, h2⟩ := ih (max m a.1.length)
    refine ⟨by rw [List.foldl_cons]; omega, ?_⟩
    intro e he
    rw [List.foldl_cons]
    rcases List.mem_cons.mp he with rfl | he
    · omega
    · exact h2 e he

theorem lt_depth {S : FS} {p : Path} (h : S.has p) : p.length < depth S := by
  unfold FS.has at h
  rw [get?_isSome_iff, List.mem_map] at h
  obtain ⟨e, he, rfl⟩ := h
  have := (le_foldl_max S 0).2 e he
  unfold depth; omega

/-- every node with a header is written -/
theorem mem_writeTo_of {srt : (Str → Str → Bool) → List Str → List Str} (hs : SortSlice srt)
    {order : Path → List Str → List Str} (ho : PermOrder order) {b : Bool} {S : FS} (hi : Inv b S) {e : Entry} :
    ∀ (q p : Path) (n : Nat), q.length < n → e ∈ nodeEntry S (p ++ q) → S.has (p ++ q) → e ∈ writeTo srt order S n p := by
  intro q
  induction q with
  | nil =>
    intro p n hn he _
    obtain ⟨m, rfl⟩ : ∃ m, n = m + 1 := ⟨n - 1, by simp at hn; omega⟩
    rw [writeTo, List.mem_append]; left; simpa using he
  | cons c q ih =>
    intro p n hn he hh
    obtain ⟨m, rfl⟩ : ∃ m, n = m + 1 := ⟨n - 1, by simp at hn; omega⟩
    have e1 : p ++ c :: q = (p ++ [c]) ++ q := by simp
    rw [e1] at he hh
    rw [writeTo, List.mem_append, List.mem_flatMap]
    right
    exact ⟨c, (mem_sorted hs ho).mpr (hi.prefix hh), ih _ _ (by simpa using hn) he hh⟩

theorem has_of_nodeEntry {S : FS} {p : Path} {e : Entry} (h : e ∈ nodeEntry S p) : S.has p := by
  obtain ⟨hd, b, h, _⟩ := mem_nodeEntry.mp h
  exact has_of h

theorem squash_ok {n : Nat} {srt : (Str → Str → Bool) → List Str → List Str} {order : Path → List Str → List Str}
    {layers : List (List Entry)} {out : List Entry} (h : squash n srt order layers = some (.ok out)) :
    ∃ S, loadLayers n layers false = some (.ok S) ∧ out = writeTo srt order S (depth S) [] := by
  unfold squash at h
  obtain ⟨S, h1, h2⟩ := bind_ok.mp h
  simp only [Option.some.injEq, Except.ok.injEq] at h2
  exact ⟨S, h1, h2.symm⟩

theorem split_plain {c : Str} (h : '/' ∉ c) : split '/' c = [c] := split_none (sep := '/') (fun _ hx e => h (e ▸ hx))

theorem comps_render {cs : List Str} (h : ∀ c ∈ cs, Plain c) : comps (render false cs) = cs := by
  unfold comps
  rw [split_render (fun c hc => (h c hc).2.2.2)]
  simp only [Bool.false_eq_true, if_false]
  split
  · rename_i e; rw [e]; rfl
  · rw [List.filter_eq_self]
    intro c hc
    simp only [decide_eq_true_eq]
    exact ⟨(h c hc).1, (h c hc).2.1⟩

theorem comps_slash (s : Str) : comps (s ++ "/".toList) = comps s := by
  unfold comps
  have : s ++ "/".toList = s ++ '/' :: [] := rfl
  rw [this, split_append]
  simp [split]

theorem comps_nodeEntry {b : Bool} {S : FS} (hi : Inv b S) {p : Path} {e : Entry} (h : e ∈ nodeEntry S p) :
    comps e.header.name = p.filter (· ≠ []) := by
  have hk := hi.keys p (has_of_nodeEntry h)
  obtain ⟨hd, bd, h1, h2⟩ := mem_nodeEntry.mp h
  have hp : ∀ c ∈ p.filter (· ≠ []), Plain c := by
    intro c hc
    rw [List.mem_filter] at hc
    exact (hk c hc.1).1.plain (by simpa using hc.2)
  rw [h2]
  simp only
  split
  · rw [comps_slash, nodeName_eq (fun c hc => (hk c hc).1), comps_render hp]
  · rw [nodeName_eq (fun c hc => (hk c hc).1), comps_render hp]

theorem mem_out {srt : (Str → Str → Bool) → List Str → List Str} (hs : SortSlice srt)
    {order : Path → List Str → List Str} (ho : PermOrder order) {b : Bool} {S : FS} (hi : Inv b S) {e : Entry} :
    e ∈ writeTo srt order S (depth S) [] ↔ ∃ q, e ∈ nodeEntry S q := by
  constructor
  · intro h; obtain ⟨q, hq⟩ := mem_writeTo _ _ h; exact ⟨q, by simpa using hq⟩
  · rintro ⟨q, hq⟩
    have hh := has_of_nodeEntry hq
    exact mem_writeTo_of hs ho hi q [] _ (lt_depth hh) (by simpa using hq) (by simpa using hh)

/-! ### C63 -/

theorem outside_iff {s : Str} : outside (clean s) = true ↔ Outside s := by
  unfold outside Outside
  simp only [Bool.or_eq_true, hasPrefix_iff, decide_eq_true_eq, or_assoc]
  constructor
  · rintro (h | h | h)
    · exact .inl h
    · exact .inr (.inr h)
    · exact .inr (.inl h)
  · rintro (h | h | h)
    · exact .inl h
    · exact .inr (.inr h)
    · exact .inr (.inl h)

theorem parseLayer_inside {oc : Bool} : ∀ {l : List Entry} {y : List Entry × List Entry}, parseLayer oc l = .ok y →
    ∀ e ∈ l, outside (clean e.header.name) = false := by
  intro l
  induction l with
  | nil => intro y _ e he; simp at he
  | cons a l ih =>
    intro y h e he
    rw [parseLayer] at h
    simp only at h
    split at h
    · simp at h
    · rename_i ho
      cases hp : parseLayer oc l with
      | error x => rw [hp] at h; simp at h
      | ok z =>
        rcases List.mem_cons.mp he with rfl | he
        · simpa using ho
        · exact ih hp e he

theorem loadFrom_inside {n : Nat} {oc : Bool} : ∀ {ls : List (List Entry)} {S S' : FS}, loadFrom n oc S ls = some (.ok S') →
    ∀ l ∈ ls, ∀ e ∈ l, outside (clean e.header.name) = false := by
  intro ls
  induction ls with
  | nil => intro S S' _ l hl; simp at hl
  | cons a ls ih =>
    intro S S' h l hl
    rw [loadFrom] at h
    cases hp : parseLayer oc a with
    | error x => rw [hp] at h; simp at h
    | ok y =>
      rw [hp] at h
      simp only at h
      obtain ⟨S1, _, h2⟩ := bind_ok.mp h
      obtain ⟨S2, _, h4⟩ := bind_ok.mp h2
      rcases List.mem_cons.mp hl with rfl | hl
      · exact parseLayer_inside hp
      · exact ih h4 l hl

/-- C63, rejection: when some entry of some layer lies outside the image root, neither Load nor Squash succeeds. -/
theorem C63_rejected (n : Nat) (srt : (Str → Str → Bool) → List Str → List Str) (order : Path → List Str → List Str)
    (oc : Bool) (layers : List (List Entry)) (h : ∃ l ∈ layers, ∃ e ∈ l, Outside e.header.name) :
    (∀ S, loadLayers n layers oc ≠ some (.ok S)) ∧ ∀ out, squash n srt order layers ≠ some (.ok out) := by
  obtain ⟨l, hl, e, he, ho⟩ := h
  rw [← outside_iff] at ho
  have key : ∀ oc S, loadLayers n layers oc ≠ some (.ok S) := by
    intro oc S h
    have := loadFrom_inside h l hl e he
    rw [this] at ho; exact absurd ho (by simp)
  refine ⟨key oc, fun out h => ?_⟩
  obtain ⟨S, h1, _⟩ := squash_ok h
  exact key false S h1

/-- C63, names: when Squash succeeds, every name in its result is relative, clean and free of "..". -/
theorem C63_names (n : Nat) (srt : (Str → Str → Bool) → List Str → List Str) (order : Path → List Str → List Str)
    (layers : List (List Entry)) (out : List Entry)
    (h : squash n srt order layers = some (.ok out)) : ∀ e ∈ out, GoodName e := by
  intro e he
  obtain ⟨S, h1, h2⟩ := squash_ok h
  subst h2
  obtain ⟨q, hq⟩ := mem_writeTo _ _ he
  rw [List.nil_append] at hq
  have hi : Inv false S := load_inv (by simp) h1
  have hk := hi.keys q (has_of_nodeEntry hq)
  obtain ⟨hd, bd, h3, h4⟩ := mem_nodeEntry.mp hq
  have hp : ∀ c ∈ q.filter (· ≠ []), Plain c := by
    intro c hc
    rw [List.mem_filter] at hc
    exact (hk c hc.1).1.plain (by simpa using hc.2)
  have hn : nodeName q = render false (q.filter (· ≠ [])) := nodeName_eq (fun c hc => (hk c hc).1)
  refine ⟨nodeName q, by rw [h4]; rfl, ?_, ?_, ?_⟩
  · rw [hn]; exact clean_render (plains_clean hp false)
  · intro hpre
    have h5 := isRooted_render_plain hp
    rw [← hn] at h5
    obtain ⟨t, ht⟩ := hpre
    rw [← ht] at h5
    simp [isRooted] at h5
  · rw [hn, split_render (fun c hc => (hp c hc).2.2.2)]
    simp only [Bool.false_eq_true, if_false]
    split
    · decide
    · intro hm; exact (hp _ hm).2.2.1 rfl

/-! ### C64 -/

theorem before_append {p q r : List Str} : before (p ++ q) (p ++ r) ↔ before q r := by
  induction p with
  | nil => simp
  | cons c p ih =>
    simp only [List.cons_append, before, ih]
    constructor
    · rintro (h | h)
      · exfalso
        rcases h with h | h
        · exact h.2 h.1
        · exact List.lt_irrefl c h.2
      · exact h.2
    · intro h; exact .inr (by simpa using h)

/-- the nodes in the order in which `WriteTo` visits them -/
theorem writeTo_pairwise {srt : (Str → Str → Bool) → List Str → List Str} (hs : SortSlice srt)
    {order : Path → List Str → List Str} (ho : PermOrder order) {b : Bool} {S : FS} (hi : Inv b S)
    (hne : ∀ q, S.has q → ∀ c ∈ q, c ≠ []) :
    ∀ (n : Nat) (p : Path), (writeTo srt order S n p).Pairwise (fun a b => before (comps a.header.name) (comps b.header.name)) := by
  have hname : ∀ {q e}, e ∈ nodeEntry S q → comps e.header.name = q := by
    intro q e he
    rw [comps_nodeEntry hi he, List.filter_eq_self]
    intro c hc
    simpa using hne q (has_of_nodeEntry he) c hc
  intro n
  induction n with
  | zero => intro p; simp [writeTo]
  | succ n ih =>
    intro p
    rw [writeTo, List.pairwise_append]
    refine ⟨?_, ?_, ?_⟩
    · unfold nodeEntry; split <;> simp
    · rw [List.pairwise_flatMap]
      refine ⟨fun c _ => ih _, ?_⟩
      have h1 := hs.strict childLess_strict childLess_total
        (l := order p (childNames S p)) ((ho p _).nodup_iff.mpr (nodup_childNames hi.nodup p))
      refine h1.imp ?_
      intro c d hcd x hx y hy
      obtain ⟨q, hq⟩ := mem_writeTo _ _ hx
      obtain ⟨r, hr⟩ := mem_writeTo _ _ hy
      rw [hname hq, hname hr, List.append_assoc, List.append_assoc, before_append]
      exact .inl (childLess_iff.mp hcd)
    · intro x hx y hy
      rw [List.mem_flatMap] at hy
      obtain ⟨c, _, hy⟩ := hy
      obtain ⟨r, hr⟩ := mem_writeTo _ _ hy
      rw [hname hx, hname hr]
      have : p ++ [c] ++ r = p ++ (c :: r) := by simp
      rw [this]
      have h2 := before_append (p := p) (q := []) (r := c :: r)
      rw [List.append_nil] at h2
      rw [h2]; exact trivial

theorem writeTo_order {srt srt' : (Str → Str → Bool) → List Str → List Str} (hs : SortSlice srt) (hs' : SortSlice srt')
    {order order' : Path → List Str → List Str} (ho : PermOrder order) (ho' : PermOrder order') (S : FS) :
    ∀ (n : Nat) (p : Path), writeTo srt order S n p = writeTo srt' order' S n p := by
  intro n
  induction n with
  | zero => intro p; rfl
  | succ n ih =>
    intro p
    rw [writeTo, writeTo]
    rw [hs.unique hs' childLess_strict childLess_total ((ho p (childNames S p)).trans (ho' p _).symm)]
    congr 2
    funext c
    exact ih _

/-- C64, determinism: the result of Squash depends neither on the iteration order of the maps nor on the order in which
the sort leaves equal elements. -/
theorem C64_deterministic (n : Nat) (srt srt' : (Str → Str → Bool) → List Str → List Str) (hs : SortSlice srt)
    (hs' : SortSlice srt') (order order' : Path → List Str → List Str) (ho : PermOrder order) (ho' : PermOrder order')
    (layers : List (List Entry)) : squash n srt order layers = squash n srt' order' layers := by
  unfold squash
  congr 1
  funext S
  rw [writeTo_order hs hs' ho ho']

theorem before_prefix {p q : List Str} (h : p <+: q) (hne : p ≠ q) : before p q ∧ ¬ before q p := by
  obtain ⟨t, rfl⟩ := h
  have h1 := before_append (p := p) (q := []) (r := t)
  have h2 := before_append (p := p) (q := t) (r := [])
  rw [List.append_nil] at h1 h2
  rw [h1, h2]
  cases t with
  | nil => simp at hne
  | cons c t => exact ⟨trivial, fun h => h⟩

theorem before_irrefl (p : List Str) : ¬ before p p := by
  have := before_append (p := p) (q := []) (r := [])
  rw [List.append_nil] at this
  rw [this]; exact fun h => h

/-- C64, order, for layers in which no symlink leads to "/" (see `C64_violated`): the entries of the squashed layer come
in the canonical order; so no name is repeated, and a directory comes before everything below it. -/
theorem C64_canonical_partial (n : Nat) (srt : (Str → Str → Bool) → List Str → List Str) (hs : SortSlice srt)
    (order : Path → List Str → List Str) (ho : PermOrder order) (layers : List (List Entry)) (out : List Entry)
    (hroot : ∀ l ∈ layers, NoRootLink l) (h : squash n srt order layers = some (.ok out)) :
    out.Pairwise (fun a b => before (comps a.header.name) (comps b.header.name)) ∧
    (out.map (fun e => comps e.header.name)).Nodup ∧
    ∀ i j (hi : i < out.length) (hj : j < out.length), comps out[i].header.name <+: comps out[j].header.name → i ≤ j := by
  obtain ⟨S, h1, h2⟩ := squash_ok h
  have hi : Inv true S := load_inv (fun _ => hroot) h1
  have hp : out.Pairwise (fun a b => before (comps a.header.name) (comps b.header.name)) := by
    rw [h2]; exact writeTo_pairwise hs ho hi (fun q hq c hc => (hi.keys q hq c hc).2 rfl) _ _
  refine ⟨hp, ?_, ?_⟩
  · unfold List.Nodup
    rw [List.pairwise_map]
    refine hp.imp ?_
    intro a b hab e
    rw [e] at hab
    exact before_irrefl _ hab
  · intro i j hi hj hpre
    apply Classical.byContradiction
    intro hlt
    have hb := List.pairwise_iff_getElem.mp hp j i hj hi (by omega)
    by_cases e : comps out[i].header.name = comps out[j].header.name
    · rw [e] at hb; exact before_irrefl _ hb
    · exact (before_prefix hpre e).2 hb

/-! ### C65 -/

/-- C65, in the loaded file system: there is no node below one that is not a directory. -/
theorem C65_no_children (n : Nat) (oc : Bool) (layers : List (List Entry)) (S : FS)
    (h : loadLayers n layers oc = some (.ok S)) (p q : Path) (hd : Header) (b : Bytes)
    (hp : S.get? p = some ⟨some hd, b⟩) (hn : hd.typeflag ≠ '5') (hpq : p <+: q) (hne : q ≠ p) : S.get? q = none := by
  have hi : Inv false S := load_inv (by simp) h
  refine hi.noDesc (hi.leaf p ?_) hpq hne
  unfold FS.nonDir; rw [hp]; exact decide_eq_true hn

/-- C65, in the squashed layer, when no symlink leads to "/" (see `C65_violated`): no entry lies below an entry that is
not a directory. -/
theorem C65_squash_partial (n : Nat) (srt : (Str → Str → Bool) → List Str → List Str)
    (order : Path → List Str → List Str) (layers : List (List Entry)) (out : List Entry)
    (hroot : ∀ l ∈ layers, NoRootLink l) (h : squash n srt order layers = some (.ok out)) :
    ∀ e ∈ out, e.header.typeflag ≠ '5' → ∀ e' ∈ out, comps e.header.name <+: comps e'.header.name →
      comps e'.header.name = comps e.header.name := by
  intro e he ht e' he' hpre
  obtain ⟨S, h1, h2⟩ := squash_ok h
  subst h2
  have hi : Inv true S := load_inv (fun _ => hroot) h1
  have hname : ∀ {q e}, e ∈ nodeEntry S q → comps e.header.name = q := by
    intro q e he
    rw [comps_nodeEntry hi he, List.filter_eq_self]
    intro c hc
    simpa using (hi.keys q (has_of_nodeEntry he) c hc).2 rfl
  obtain ⟨p, hp⟩ := mem_writeTo _ _ he
  obtain ⟨q, hq⟩ := mem_writeTo _ _ he'
  rw [List.nil_append] at hp hq
  rw [hname hp, hname hq] at hpre ⊢
  apply Classical.byContradiction
  intro hne
  obtain ⟨hd, b, h3, h4⟩ := mem_nodeEntry.mp hp
  have := C65_no_children n false layers S h1 p q hd b h3 (by rw [h4] at ht; exact ht) hpre hne
  exact not_has.mpr this (has_of_nodeEntry hq)

/-! ### examples and violations -/

/-- entries for examples -/
def exFile (name : String) (body : Bytes) : Entry :=
  ⟨{ name := name.toList, typeflag := '0', linkname := [], size := body.length, mode := 0o644, other := [] }, body⟩
def exDir (name : String) : Entry :=
  ⟨{ name := name.toList, typeflag := '5', linkname := [], size := 0, mode := 0o755, other := [] }, []⟩
def exLink (name target : String) : Entry :=
  ⟨{ name := name.toList, typeflag := '2', linkname := target.toList, size := 0, mode := 0o777, other := [] }, []⟩

def exLayers : List (List Entry) :=
  [[exDir "d/", exFile "d/f" [1], exLink "l" "d", exFile ".wh.z" [], exFile "x/../y" [2]], [exFile "l/g" [3], exFile "d/.wh.f" []]]

/-- a case for C63, C64 and C65 -/
example : (squash 9 insertionSort (fun _ l => l) exLayers).map (fun r => r.toOption.map (·.map (fun e => (e.header.name, e.body)))) =
    some (some [(".wh.z".toList, []), ("d/".toList, []), ("d/.wh.f".toList, []), ("d/g".toList, [3]), ("l".toList, []),
      ("y".toList, [2])]) := by decide +kernel

example : ∀ l ∈ exLayers, NoRootLink l := by unfold NoRootLink; decide +kernel

example : Outside "a/../../b".toList := .inr (.inr (by decide))

/-- from an evaluation to every large enough bound, every sort and every iteration order -/
theorem squash_all {n : Nat} {layers : List (List Entry)} {out : List Entry}
    (h : squash n insertionSort (fun _ l => l) layers = some (.ok out)) (m : Nat) (hm : n ≤ m)
    (srt : (Str → Str → Bool) → List Str → List Str) (hs : SortSlice srt) (order : Path → List Str → List Str)
    (ho : PermOrder order) : squash m srt order layers = some (.ok out) := by
  rw [C64_deterministic m srt insertionSort hs sortSlice_exists order (fun _ l => l) ho (fun _ _ => List.Perm.refl _)]
  exact squash_mono hm h

/-- C64 fails when a symlink leads to "/": the code looks up the empty name in the root directory and makes a second node
for the same file, which is then written a second time. -/
theorem C64_violated (n : Nat) (hn : 9 ≤ n) (srt : (Str → Str → Bool) → List Str → List Str) (hs : SortSlice srt)
    (order : Path → List Str → List Str) (ho : PermOrder order) :
    squash n srt order [[exLink "l" "/", exFile "x" [1]], [exFile "l/x" [2]]] =
      some (.ok [exFile "x" [2], exLink "l" "/", exFile "x" [1]]) :=
  squash_all (by decide +kernel) n hn srt hs order ho

/-- C65 fails in the same way: the squashed layer has the regular file "x" and a file "x/y" -/
theorem C65_violated (n : Nat) (hn : 9 ≤ n) (srt : (Str → Str → Bool) → List Str → List Str) (hs : SortSlice srt)
    (order : Path → List Str → List Str) (ho : PermOrder order) :
    squash n srt order [[exLink "l" "/", exFile "x" [1]], [exFile "l/x/y" [2]]] =
      some (.ok [exFile "x/y" [2], exLink "l" "/", exFile "x" [1]]) :=
  squash_all (by decide +kernel) n hn srt hs order ho

end Squash
