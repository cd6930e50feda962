import Verif.Repo.Spec
import Verif.Pep345.Props
/-! Properties C38–C40 and C84: downloads, link filtering, API version, links of an index page. -/
namespace Repo
open Go Repo.Spec

/-! ### traversal -/

mutual
/-- the nodes in the order `visitHTML` calls back -/
def post : Node → List Node
  | .mk k d a cs => postList cs ++ [.mk k d a cs]
def postList : List Node → List Node
  | [] => []
  | n :: ns => post n ++ postList ns
end

/-- a callback run over a list -/
def runAll {σ : Type} (after : σ → Node → Except Unit σ) : σ → List Node → Except Unit σ
  | s, [] => .ok s
  | s, n :: ns => match after s n with
    | .error e => .error e
    | .ok s' => runAll after s' ns

theorem runAll_append {σ : Type} (after : σ → Node → Except Unit σ) (s : σ) (l m : List Node) :
    runAll after s (l ++ m) = match runAll after s l with
      | .error e => .error e
      | .ok s' => runAll after s' m := by
  induction l generalizing s with
  | nil => rfl
  | cons n l ih =>
    simp only [List.cons_append, runAll]
    cases after s n with
    | error => rfl
    | ok s' => exact ih s'

mutual
theorem visitHTML_eq {σ : Type} (after : σ → Node → Except Unit σ) (s : σ) : ∀ n : Node,
    visitHTML after s n = runAll after s (post n)
  | .mk k d a cs => by
    rw [visitHTML, post, runAll_append, visitList_eq after s cs]
    cases runAll after s (postList cs) with
    | error => rfl
    | ok s' => simp only [runAll]; cases after s' (.mk k d a cs) <;> rfl
theorem visitList_eq {σ : Type} (after : σ → Node → Except Unit σ) (s : σ) : ∀ ns : List Node,
    visitList after s ns = runAll after s (postList ns)
  | [] => by rw [visitList, postList]; rfl
  | n :: ns => by
    rw [visitList, postList, runAll_append, visitHTML_eq after s n]
    cases runAll after s (post n) with
    | error => rfl
    | ok s' => exact visitList_eq after s' ns
end

mutual
/-- what is only found on nodes that are not nested in one another has the same order in both traversals -/
theorem filterMap_post {β : Type} (f : Node → Option β) : ∀ n : Node,
    (∀ m ∈ nodes n, (f m).isSome → ∀ x ∈ nodesList m.children, f x = none) →
    (post n).filterMap f = (nodes n).filterMap f
  | .mk k d a cs, h => by
    have ih := filterMap_postList f cs (fun m hm => h m (by rw [nodes]; simp [hm]))
    rw [post, nodes, List.filterMap_append, List.filterMap_cons, ih]
    cases hf : f (.mk k d a cs) with
    | none => simp [hf]
    | some v =>
      have : (nodesList cs).filterMap f = [] := by
        rw [List.filterMap_eq_nil_iff]
        exact h (.mk k d a cs) (by rw [nodes]; simp) (by rw [hf]; rfl)
      rw [this]
      simp only [List.nil_append, List.filterMap_cons, hf, List.filterMap_nil]
      try rw [this]
theorem filterMap_postList {β : Type} (f : Node → Option β) : ∀ ns : List Node,
    (∀ m ∈ nodesList ns, (f m).isSome → ∀ x ∈ nodesList m.children, f x = none) →
    (postList ns).filterMap f = (nodesList ns).filterMap f
  | [], _ => rfl
  | n :: ns, h => by
    rw [postList, nodesList, List.filterMap_append, List.filterMap_append,
      filterMap_post f n (fun m hm => h m (by rw [nodesList]; simp [hm])),
      filterMap_postList f ns (fun m hm => h m (by rw [nodesList]; simp [hm]))]
end

/-! ### C40 -/

/-- elements that cannot have content (HTML void elements), which the HTML parser never gives children: here only
`meta` matters -/
def MetaLeaves (doc : Node) : Prop := ∀ n ∈ nodes doc, IsElem "meta" n → n.children = []

/-- the version a page declares: the last declaration in document order; 1.0 if there is none or it is empty -/
def pageVersion (doc : Node) : Str :=
  match ((nodes doc).filterMap declares).getLast? with
  | none => "1.0".toList
  | some [] => "1.0".toList
  | some v => v

theorem runAll_last (f : Node → Option Str) (s : Str) (l : List Node) :
    runAll (fun s n => .ok ((f n).getD s)) s l = .ok (((l.filterMap f).getLast?).getD s) := by
  induction l generalizing s with
  | nil => rfl
  | cons n l ih =>
    simp only [runAll]
    rw [ih, List.filterMap_cons]
    cases hf : f n with
    | none => rfl
    | some v =>
      cases h : l.filterMap f with
      | nil => simp
      | cons a l => simp [List.getLast?_cons]

theorem getVersion_eq {doc : Node} (h : MetaLeaves doc) : getVersion doc = Pep440.parseVersion (pageVersion doc) := by
  unfold getVersion
  have e : versionNode = fun s n => .ok ((declares n).getD s) := by
    funext s n
    unfold versionNode declares attrVal getAttr
    by_cases h1 : n.kind ≠ .element ∨ n.data ≠ "meta".toList
    · rw [if_pos h1, if_neg (fun h => h1.elim (fun h' => h' h.1) (fun h' => h' h.2.1))]; rfl
    · rw [if_neg h1]
      simp only [not_or, ne_eq, Decidable.not_not] at h1
      cases hn : (n.attrs.find? (fun a => a.ns = [] ∧ a.key = "name".toList)).map (·.val) with
      | none =>
        rw [if_pos (by simp), if_neg (by simp)]; rfl
      | some v =>
        by_cases hv : v = "pypi:repository-version".toList
        · rw [if_neg (by simp [hv]), if_pos ⟨h1.1, h1.2, by rw [hv]⟩]
          cases (n.attrs.find? (fun a => a.ns = [] ∧ a.key = "content".toList)).map (·.val) <;> rfl
        · rw [if_pos (by simpa using hv), if_neg (fun h => hv (by simpa using h.2.2))]; rfl
  rw [e, visitHTML_eq, runAll_last]
  simp only
  rw [filterMap_post declares doc]
  · unfold pageVersion
    cases ((nodes doc).filterMap declares).getLast? with
    | none => rfl
    | some v => cases v <;> rfl
  · intro m hm hs
    have : IsElem "meta" m := by
      unfold declares at hs
      split at hs
      · rename_i h; exact ⟨h.1, h.2.1⟩
      · cases hs
    rw [h m hm this]
    simp [nodesList]

/-- C40: a page is refused exactly when the version it declares — the last declaration in document order, 1.0 when
absent — cannot be read or has a major number above 1. -/
theorem C40_version_check {doc : Node} (h : MetaLeaves doc) :
    (htmlVersionCheck doc = .ok () ∨ htmlVersionCheck doc = .error ()) ∧
    (htmlVersionCheck doc = .error () ↔
      Pep440.parseVersion (pageVersion doc) = .error () ∨
      ∃ v n rest, Pep440.parseVersion (pageVersion doc) = .ok v ∧ v.release = n :: rest ∧ n > 1) := by
  have hd : ∀ x : Except Unit Unit, x = .ok () ∨ x = .error () := by
    intro x; cases x <;> simp
  refine ⟨hd _, ?_⟩
  unfold htmlVersionCheck
  rw [getVersion_eq h]
  cases hp : Pep440.parseVersion (pageVersion doc) with
  | error e => simp
  | ok v =>
    simp only [reduceCtorEq, false_or]
    cases hr : v.release with
    | nil =>
      have : v.toPubVer.major = 0 := by simp [Pep440.PubVer.major, Pep440.PubVer.releaseSegment, hr]
      simp [this, hr]
    | cons n rest =>
      have : v.toPubVer.major = n := by simp [Pep440.PubVer.major, Pep440.PubVer.releaseSegment, hr]
      rw [this]
      constructor
      · intro h1
        split at h1
        · rename_i hgt; exact ⟨v, n, rest, rfl, hr, hgt⟩
        · cases h1
      · rintro ⟨v', n', rest', e1, e2, e3⟩
        injection e1 with e1; subst e1
        rw [hr] at e2; injection e2 with e2 _; subst e2
        rw [if_pos e3]

def exMeta (v : String) : Node :=
  .mk .element "meta".toList [⟨[], "name".toList, "pypi:repository-version".toList⟩, ⟨[], "content".toList, v.toList⟩] []

def exDoc (vs : List String) : Node :=
  .mk .other [] [] [.mk .element "html".toList [] [.mk .element "head".toList [] (vs.map exMeta)]]

example : MetaLeaves (exDoc ["2.0", "1.1"]) ∧ htmlVersionCheck (exDoc ["2.0", "1.1"]) = .ok () ∧
    htmlVersionCheck (exDoc ["1.1", "2.0"]) = .error () ∧ htmlVersionCheck (exDoc []) = .ok () ∧
    pageVersion (exDoc ["2.0", "1.1"]) = "1.1".toList := by
  refine ⟨?_, by decide +kernel, by decide +kernel, by decide +kernel, by decide +kernel⟩
  intro n hn
  simp [exDoc, nodes, nodesList, exMeta] at hn
  rcases hn with rfl | rfl | rfl | rfl | rfl <;> simp [IsElem, Node.kind, Node.data, Node.children]

/-! ### C84 -/

/-- the text below a node: its text nodes in document order -/
def textBelow (n : Node) : Str := ((nodes n).filterMap (fun m => if m.kind = .text then some m.data else none)).flatten

/-- text nodes have no children and links are not nested, as in every tree the HTML parser builds -/
def WellNested (doc : Node) : Prop :=
  (∀ n ∈ nodes doc, n.kind = .text → n.children = []) ∧
  (∀ n ∈ nodes doc, IsElem "a" n → ∀ m ∈ nodesList n.children, ¬ IsElem "a" m)

/-- `l` is the link of the element `n` -/
def IsLinkOf (resolve : Str → Option Str) (n : Node) (l : Link) : Prop :=
  l.text = textBelow n ∧
  (∀ a ∈ n.attrs, a.ns = [] → a.key = "href".toList → (resolve a.val).isSome) ∧
  l.href = (match ((n.attrs.filter (fun a => a.ns = [] ∧ a.key = "href".toList)).getLast?) with
    | some a => (resolve a.val).getD []
    | none => []) ∧
  (∀ key, l.attr key = if hasPrefix key "data-".toList then
      ((n.attrs.filter (fun a => a.ns = [] ∧ a.key = key)).getLast?).map (·.val) else none)

mutual
theorem nodes_children {n m : Node} : m ∈ nodes n → ∀ x ∈ nodes m, x ∈ nodes n := by
  intro h x hx
  match n with
  | .mk k d a cs =>
    rw [nodes] at h
    rcases List.mem_cons.mp h with rfl | h
    · exact hx
    · rw [nodes]; exact List.mem_cons_of_mem _ (nodesList_children h x hx)
theorem nodesList_children {ns : List Node} {m : Node} : m ∈ nodesList ns → ∀ x ∈ nodes m, x ∈ nodesList ns := by
  intro h x hx
  match ns with
  | [] => simp [nodesList] at h
  | n :: ns =>
    rw [nodesList, List.mem_append] at h ⊢
    rcases h with h | h
    · exact Or.inl (nodes_children h x hx)
    · exact Or.inr (nodesList_children h x hx)
end

theorem runAll_text (s : Str) (l : List Node) :
    runAll (fun (t : Str) (c : Node) => .ok (if c.kind = .text then t ++ c.data else t)) s l =
      .ok (s ++ (l.filterMap (fun m => if m.kind = .text then some m.data else none)).flatten) := by
  induction l generalizing s with
  | nil => simp [runAll]
  | cons n l ih =>
    simp only [runAll]
    rw [ih, List.filterMap_cons]
    by_cases hn : n.kind = .text <;> simp [hn]

theorem textOf_eq {n : Node} (h : ∀ m ∈ nodes n, m.kind = .text → m.children = []) : textOf n = textBelow n := by
  unfold textOf
  rw [visitHTML_eq, runAll_text]
  simp only [List.nil_append]
  unfold textBelow
  rw [filterMap_post]
  intro m hm hs x hx
  have : m.kind = .text := by
    by_cases hk : m.kind = .text
    · exact hk
    · simp [hk] at hs
  rw [h m hm this] at hx
  simp [nodesList] at hx

theorem find_cons_attr (l : Link) (k v key : Str) :
    Link.attr { l with data := (k, v) :: l.data } key = if k = key then some v else l.attr key := by
  unfold Link.attr
  by_cases h : k = key <;> simp [h]

theorem linkAttrs_spec (resolve : Str → Option Str) (as : List Attr) : ∀ l : Link,
    (∀ l', linkAttrs resolve l as = .ok l' →
      (∀ a ∈ as, a.ns = [] → a.key = "href".toList → (resolve a.val).isSome) ∧
      l'.text = l.text ∧
      l'.href = (match ((as.filter (fun a => a.ns = [] ∧ a.key = "href".toList)).getLast?) with
        | some a => (resolve a.val).getD []
        | none => l.href) ∧
      (∀ key, l'.attr key = if hasPrefix key "data-".toList then
        (match ((as.filter (fun a => a.ns = [] ∧ a.key = key)).getLast?) with
          | some a => some a.val
          | none => l.attr key) else l.attr key)) ∧
    ((∀ a ∈ as, a.ns = [] → a.key = "href".toList → (resolve a.val).isSome) → ∃ l', linkAttrs resolve l as = .ok l') := by
  induction as with
  | nil =>
    intro l
    refine ⟨?_, fun _ => ⟨l, rfl⟩⟩
    intro l' h
    injection h with h; subst h
    simp
  | cons a as ih =>
    intro l
    have step : (∃ l1, linkAttr resolve l a = .ok l1 ∧ l1.text = l.text ∧
        (a.ns = [] → a.key = "href".toList → (resolve a.val).isSome) ∧
        (l1.href = if a.ns = [] ∧ a.key = "href".toList then (resolve a.val).getD [] else l.href) ∧
        (∀ key, l1.attr key = if hasPrefix key "data-".toList ∧ a.ns = [] ∧ a.key = key then some a.val else l.attr key)) ∨
        (linkAttr resolve l a = .error () ∧ a.ns = [] ∧ a.key = "href".toList ∧ resolve a.val = none) := by
      unfold linkAttr
      by_cases h1 : a.ns = [] ∧ a.key = "href".toList
      · rw [if_pos h1]
        cases hr : resolve a.val with
        | none => exact Or.inr ⟨rfl, h1.1, h1.2, rfl⟩
        | some h =>
          refine Or.inl ⟨_, rfl, rfl, by simp, by simp [h1], ?_⟩
          intro key
          rw [if_neg]
          · rfl
          · rintro ⟨hp, _, hk⟩
            rw [← hk, h1.2] at hp
            exact absurd hp (by decide)
      · rw [if_neg h1]
        by_cases h2 : a.ns = [] ∧ hasPrefix a.key "data-".toList = true
        · rw [if_pos h2]
          refine Or.inl ⟨_, rfl, rfl, fun x y => absurd ⟨x, y⟩ h1, by simp only [if_neg h1], ?_⟩
          intro key
          rw [find_cons_attr]
          by_cases hk : a.key = key
          · rw [if_pos hk, if_pos ⟨hk ▸ h2.2, h2.1, hk⟩]
          · rw [if_neg hk, if_neg (fun h => hk h.2.2)]
        · rw [if_neg h2]
          refine Or.inl ⟨_, rfl, rfl, fun x y => absurd ⟨x, y⟩ h1, by simp only [if_neg h1], ?_⟩
          intro key
          rw [if_neg]
          rintro ⟨hp, hn, hk⟩
          exact h2 ⟨hn, hk ▸ hp⟩
    have getLast_cons : ∀ (q : Attr → Bool), ((a :: as).filter q).getLast? =
        (match (as.filter q).getLast? with | some x => some x | none => if q a then some a else none) := by
      intro q
      rw [List.filter_cons]
      cases hq : q a with
      | true =>
        simp only [if_true]
        rw [List.getLast?_cons]
        cases (as.filter q).getLast? <;> rfl
      | false =>
        simp only [Bool.false_eq_true, if_false]
        cases (as.filter q).getLast? <;> rfl
    rcases step with ⟨l1, e1, ht, hok, hh, hd⟩ | ⟨e1, hn, hk, hr⟩
    · refine ⟨?_, ?_⟩
      · intro l' h
        rw [linkAttrs, e1] at h
        obtain ⟨i1, i2, i3, i4⟩ := (ih l1).1 l' h
        refine ⟨?_, i2.trans ht, ?_, ?_⟩
        · intro b hb
          rcases List.mem_cons.mp hb with rfl | hb
          · exact hok
          · exact i1 b hb
        · rw [i3, getLast_cons]
          cases (as.filter (fun a => decide (a.ns = [] ∧ a.key = "href".toList))).getLast? with
          | some x => rfl
          | none =>
            simp only [hh]
            by_cases h1 : a.ns = [] ∧ a.key = "href".toList
            · rw [if_pos h1, if_pos (decide_eq_true h1)]
            · rw [if_neg h1, if_neg (by simpa using h1)]
        · intro key
          rw [i4, getLast_cons]
          cases (as.filter (fun a => decide (a.ns = [] ∧ a.key = key))).getLast? with
          | some x =>
            simp only [hd]
            generalize hasPrefix key "data-".toList = q
            cases q <;> simp
          | none =>
            simp only [hd]
            generalize hasPrefix key "data-".toList = q
            by_cases h1 : a.ns = [] ∧ a.key = key <;> cases q <;> simp [h1]
      · intro h
        rw [linkAttrs, e1]
        exact (ih l1).2 (fun b hb => h b (by simp [hb]))
    · refine ⟨?_, ?_⟩
      · intro l' h
        rw [linkAttrs, e1] at h; cases h
      · intro h
        have := h a (by simp) hn hk
        rw [hr] at this; cases this

/-- the link of an element, if it is one -/
def linkOf (resolve : Str → Option Str) (n : Node) : Except Unit Link :=
  match linkAttrs resolve { text := [], href := [], data := [] } n.attrs with
  | .error e => .error e
  | .ok l => .ok { l with text := textOf n }

theorem linkOf_spec {resolve : Str → Option Str} {n : Node} (ht : ∀ m ∈ nodes n, m.kind = .text → m.children = []) :
    (∀ l, linkOf resolve n = .ok l → IsLinkOf resolve n l) ∧
    ((∀ a ∈ n.attrs, a.ns = [] → a.key = "href".toList → (resolve a.val).isSome) → ∃ l, linkOf resolve n = .ok l) := by
  have hs := linkAttrs_spec resolve n.attrs { text := [], href := [], data := [] }
  unfold linkOf
  constructor
  · intro l h
    split at h
    · cases h
    · rename_i l' hl
      injection h with h; subst h
      obtain ⟨h1, _, h3, h4⟩ := hs.1 _ hl
      refine ⟨textOf_eq ht, h1, h3, ?_⟩
      intro key
      have := h4 key
      have e : Link.attr { l' with text := textOf n } key = l'.attr key := rfl
      rw [e, this]
      have e0 : Link.attr { text := [], href := [], data := [] } key = none := rfl
      rw [e0]
      split
      · cases ((n.attrs.filter (fun a => decide (a.ns = [] ∧ a.key = key))).getLast?) <;> rfl
      · rfl
  · intro h
    obtain ⟨l, hl⟩ := hs.2 h
    rw [hl]; exact ⟨_, rfl⟩

/-- element-wise correspondence of two lists -/
inductive Corr {α β : Type} (R : α → β → Prop) : List α → List β → Prop
  | nil : Corr R [] []
  | cons {a b l m} : R a b → Corr R l m → Corr R (a :: l) (b :: m)

def isA (n : Node) : Bool := n.kind = .element ∧ n.data = "a".toList

theorem runAll_links (resolve : Str → Option Str) (l : List Node) : ∀ acc,
    (∀ r, runAll (linkNode resolve) acc l = .ok r → ∃ ls, r = acc ++ ls ∧
      Corr (fun n x => linkOf resolve n = .ok x) (l.filter isA) ls) ∧
    ((∀ n ∈ l, isA n = true → ∃ x, linkOf resolve n = .ok x) → ∃ r, runAll (linkNode resolve) acc l = .ok r) := by
  induction l with
  | nil =>
    intro acc
    exact ⟨fun r h => ⟨[], by injection h with h; simp [h], .nil⟩, fun _ => ⟨acc, rfl⟩⟩
  | cons n l ih =>
    intro acc
    have e : linkNode resolve acc n = if isA n then (match linkOf resolve n with
        | .error e => .error e
        | .ok x => .ok (acc ++ [x])) else .ok acc := by
      unfold linkNode isA linkOf
      by_cases h : n.kind ≠ .element ∨ n.data ≠ "a".toList
      · rw [if_pos h, if_neg]
        simp only [decide_eq_true_eq]
        rintro ⟨h1, h2⟩
        exact h.elim (fun x => x h1) (fun x => x h2)
      · rw [if_neg h, if_pos]
        · cases linkAttrs resolve { text := [], href := [], data := [] } n.attrs <;> rfl
        · simpa using h
    simp only [runAll, e]
    cases ha : isA n with
    | false =>
      simp only [Bool.false_eq_true, if_false]
      rw [List.filter_cons, ha]
      exact ⟨(ih acc).1, fun h => (ih acc).2 (fun m hm => h m (by simp [hm]))⟩
    | true =>
      simp only [if_true]
      rw [List.filter_cons, ha]
      cases hx : linkOf resolve n with
      | error e =>
        refine ⟨fun r h => by simp at h, fun h => ?_⟩
        obtain ⟨x, h⟩ := h n (by simp) ha
        rw [hx] at h; cases h
      | ok x =>
        simp only
        refine ⟨?_, fun h => (ih _).2 (fun m hm => h m (by simp [hm]))⟩
        intro r h
        obtain ⟨ls, e1, e2⟩ := (ih _).1 r h
        exact ⟨x :: ls, by rw [e1]; simp, .cons hx e2⟩

theorem filter_eq_filterMap {α : Type} (p : α → Bool) (l : List α) :
    l.filter p = l.filterMap (fun a => if p a then some a else none) := by
  induction l with
  | nil => rfl
  | cons a l ih => rw [List.filter_cons, List.filterMap_cons]; cases h : p a <;> simp [ih]

theorem isA_iff {n : Node} : isA n = true ↔ IsElem "a" n := by simp [isA, IsElem]

theorem mem_post (n m : Node) : m ∈ post n ↔ m ∈ nodes n := by
  constructor <;> intro h
  · exact (mem_post_aux n m).mp h
  · exact (mem_post_aux n m).mpr h
where
  mem_post_aux : ∀ n m, m ∈ post n ↔ m ∈ nodes n
  | .mk k d a cs, m => by
    rw [post, nodes, List.mem_append, mem_postList_aux cs m, List.mem_singleton, List.mem_cons]
    exact or_comm
  mem_postList_aux : ∀ ns m, m ∈ postList ns ↔ m ∈ nodesList ns
  | [], m => by simp [postList, nodesList]
  | n :: ns, m => by
    rw [postList, nodesList, List.mem_append, List.mem_append, mem_post_aux n m, mem_postList_aux ns m]

/-- C84: for a page that the version check lets through, listing succeeds exactly when every `href` of an `a` element
can be resolved, and then gives one link per `a` element in document order, with the element's text, resolved target
and `data-` attributes. -/
theorem C84_index_links {resolve : Str → Option Str} {hook : Node → Except Unit Unit} {doc : Node}
    (hw : WellNested doc) (hh : hook doc = .ok ()) :
    (∀ links, indexLinks hook resolve doc = .ok links →
      Corr (IsLinkOf resolve) ((nodes doc).filter isA) links) ∧
    ((∃ links, indexLinks hook resolve doc = .ok links) ↔
      ∀ n ∈ nodes doc, IsElem "a" n → ∀ a ∈ n.attrs, a.ns = [] → a.key = "href".toList → (resolve a.val).isSome) := by
  have hspec : ∀ n ∈ nodes doc, _ := fun n hn => linkOf_spec (resolve := resolve) (n := n)
    (fun m hm => hw.1 m (nodes_children hn m hm))
  have hord : (post doc).filter isA = (nodes doc).filter isA := by
    rw [filter_eq_filterMap, filter_eq_filterMap]
    refine filterMap_post _ doc ?_
    intro m hm hs x hx
    by_cases ha : isA m = true
    · have := hw.2 m hm (isA_iff.mp ha) x hx
      rw [if_neg (fun h => this (isA_iff.mp h))]
    · simp [ha] at hs
  have hrun := runAll_links resolve (post doc) []
  unfold indexLinks
  rw [hh]
  simp only [visitHTML_eq]
  have first : ∀ links, runAll (linkNode resolve) [] (post doc) = .ok links →
      Corr (fun n x => linkOf resolve n = .ok x) ((nodes doc).filter isA) links := by
    intro links h
    obtain ⟨ls, e1, e2⟩ := hrun.1 links h
    rw [hord] at e2
    simp only [List.nil_append] at e1
    exact e1 ▸ e2
  have conv : ∀ {ns : List Node} {ls : List Link}, (∀ n ∈ ns, n ∈ nodes doc) →
      Corr (fun n x => linkOf resolve n = .ok x) ns ls → Corr (IsLinkOf resolve) ns ls := by
    intro ns ls hns h
    induction h with
    | nil => exact .nil
    | cons h _ ih => exact .cons ((hspec _ (hns _ (by simp))).1 _ h) (ih (fun n hn => hns n (by simp [hn])))
  refine ⟨fun links h => conv (fun n hn => (List.mem_filter.mp hn).1) (first links h), ?_, ?_⟩
  · rintro ⟨links, h⟩ n hn ha
    have hc := conv (fun n hn => (List.mem_filter.mp hn).1) (first links h)
    have hmem : n ∈ (nodes doc).filter isA := List.mem_filter.mpr ⟨hn, isA_iff.mpr ha⟩
    clear first conv hrun h
    generalize (nodes doc).filter isA = l at hc hmem
    induction hc with
    | nil => cases hmem
    | cons h _ ih =>
      rcases List.mem_cons.mp hmem with rfl | hmem
      · exact h.2.1
      · exact ih hmem
  · intro h
    refine hrun.2 (fun n hn ha => ?_)
    have hn' := (mem_post doc n).mp hn
    exact (hspec n hn').2 (h n hn' (isA_iff.mp ha))

def exIndex : Node :=
  .mk .element "body".toList []
    [.mk .element "a".toList [⟨[], "href".toList, "x".toList⟩, ⟨[], "data-yanked".toList, []⟩] [.mk .text "f1".toList [] []],
     .mk .element "br".toList [] [],
     .mk .element "a".toList [⟨[], "href".toList, "y".toList⟩]
       [.mk .element "b".toList [] [.mk .text "f".toList [] []], .mk .text "2".toList [] []]]

example : WellNested exIndex ∧ indexLinks htmlVersionCheck (fun s => some ('/' :: s)) exIndex =
    .ok [⟨"f1".toList, "/x".toList, [("data-yanked".toList, [])]⟩, ⟨"f2".toList, "/y".toList, []⟩] := by
  refine ⟨⟨?_, ?_⟩, by decide +kernel⟩
  · intro n hn
    simp [exIndex, nodes, nodesList] at hn
    rcases hn with rfl | rfl | rfl | rfl | rfl | rfl | rfl | rfl <;> simp [Node.kind, Node.children]
  · intro n hn
    simp [exIndex, nodes, nodesList] at hn
    rcases hn with rfl | rfl | rfl | rfl | rfl | rfl | rfl | rfl <;>
      simp [IsElem, Node.kind, Node.children, Node.data, nodesList, nodes]

/-! ### C39 -/

/-- whether a link stays in the list: no Python version configured, no or an empty Requires-Python, one that cannot be
read, or one whose clauses the Python version all satisfies -/
def Stays (python : Option Pep440.Ver) (l : Link) : Prop :=
  python = none ∨ l.attr "data-requires-python".toList = none ∨ l.attr "data-requires-python".toList = some [] ∨
  ∃ py req, python = some py ∧ l.attr "data-requires-python".toList = some req ∧
    (Pep345.parseSpecifier req = .error () ∨
     ∃ cs, Pep345.parseSpecifier req = .ok cs ∧ ∀ c ∈ cs, c.match py = some true)

/-- the links' clauses can be evaluated: true unless a version's component sits at the edge of the machine range -/
def Evaluable (python : Option Pep440.Ver) (l : Link) : Prop :=
  ∀ py req cs, python = some py → l.attr "data-requires-python".toList = some req →
    Pep345.parseSpecifier req = .ok cs → Pep440.Spec.WF py ∧ ∀ c ∈ cs, Pep440.Spec.WF c.ver

theorem keepLink_spec {python : Option Pep440.Ver} {l : Link} :
    (∀ b, keepLink python l = some b → (b = true ↔ Stays python l)) ∧
    (Evaluable python l → ∃ b, keepLink python l = some b) := by
  have htrue : ∀ py (sp : List Pep345.Clause), Pep345.specMatch sp py = some true ↔ ∀ c ∈ sp, c.match py = some true := by
    intro py sp
    induction sp with
    | nil => simp [Pep345.specMatch]
    | cons c cs ih =>
      rw [Pep345.specMatch]
      rcases h : c.match py with _ | (_ | _) <;> simp [h, ih]
  have htot : ∀ py (sp : List Pep345.Clause), Pep440.Spec.WF py → (∀ c ∈ sp, Pep440.Spec.WF c.ver) →
      ∃ b, Pep345.specMatch sp py = some b := by
    intro py sp hpy hsp
    induction sp with
    | nil => exact ⟨_, rfl⟩
    | cons c cs ih =>
      rw [Pep345.specMatch]
      obtain ⟨b, hb⟩ := Pep345.clause_total (hsp c (by simp)) hpy
      rw [hb]
      cases b
      · exact ⟨_, rfl⟩
      · exact ih (fun c hc => hsp c (by simp [hc]))
  unfold keepLink Stays Evaluable
  generalize l.attr "data-requires-python".toList = at_
  cases python with
  | none => simp
  | some py =>
    cases at_ with
    | none => simp
    | some req =>
      by_cases hr : req = []
      · simp [hr]
      · simp only [Option.getD_some, ne_eq, hr, not_false_eq_true, if_true, Pep345.haveRequiredPython]
        cases hp : Pep345.parseSpecifier req with
        | error e => simp [hp]
        | ok cs =>
          simp only
          have ht := htrue py cs
          cases hs : Pep345.specMatch cs py with
          | none =>
            refine ⟨by simp, fun h => ?_⟩
            obtain ⟨w1, w2⟩ := h py req cs rfl rfl hp
            obtain ⟨b, hb⟩ := htot py cs w1 w2
            rw [hs] at hb; cases hb
          | some b =>
            rw [hs] at ht
            cases b with
            | true =>
              refine ⟨?_, fun _ => ⟨true, rfl⟩⟩
              rintro b ⟨⟩
              refine ⟨fun _ => Or.inr (Or.inr (Or.inr ⟨py, req, rfl, rfl, Or.inr ⟨cs, hp, ht.mp rfl⟩⟩)), fun _ => rfl⟩
            | false =>
              refine ⟨?_, fun _ => ⟨false, rfl⟩⟩
              rintro b ⟨⟩
              constructor
              · intro h; cases h
              · rintro (h | h | h | ⟨py', req', h1, h2, h3⟩)
                · cases h
                · cases h
                · injection h with h; exact absurd h hr
                · injection h1 with h1; injection h2 with h2; subst h1; subst h2
                  rcases h3 with h3 | ⟨cs', h3, h4⟩
                  · rw [hp] at h3; cases h3
                  · rw [hp] at h3; injection h3 with h3; subst h3
                    exact absurd (ht.mpr h4) (by simp)

open Classical in
/-- C39: the file list is the links of the page that stay, in their order; and the filter returns whenever the clauses
can be evaluated. -/
theorem C39_filter (python : Option Pep440.Ver) (links : List Link) :
    (∀ r, filterLinks python links = some r → r = links.filter (fun l => decide (Stays python l))) ∧
    ((∀ l ∈ links, Evaluable python l) → ∃ r, filterLinks python links = some r) := by
  induction links with
  | nil => simp [filterLinks]
  | cons l ls ih =>
    obtain ⟨k1, k2⟩ := keepLink_spec (python := python) (l := l)
    constructor
    · intro r h
      rw [filterLinks] at h
      split at h
      · cases h
      · rename_i k hk
        split at h
        · cases h
        · rename_i r' hr
          injection h with h
          have hr := ih.1 r' hr
          have := k1 k hk
          rw [List.filter_cons, ← hr, ← h]
          cases k with
          | true => rw [if_pos rfl, if_pos (decide_eq_true (this.mp rfl))]
          | false => rw [if_neg (by simp), if_neg (by simpa using this)]
    · intro h
      obtain ⟨b, hb⟩ := k2 (h l (by simp))
      obtain ⟨r, hr⟩ := ih.2 (fun x hx => h x (by simp [hx]))
      rw [filterLinks, hb, hr]
      exact ⟨_, rfl⟩

example : (filterLinks (Pep440.parseVersion "3.9".toList).toOption
    [⟨"a".toList, [], [("data-requires-python".toList, ">=3.6".toList)]⟩,
     ⟨"b".toList, [], [("data-requires-python".toList, ">=3.10".toList)]⟩,
     ⟨"c".toList, [], [("data-requires-python".toList, "garbage".toList)]⟩,
     ⟨"d".toList, [], []⟩]).map (·.map (·.text)) = some ["a".toList, "c".toList, "d".toList] := by decide +kernel

/-! ### C38 -/

/-- `part` is `key=value` (or a bare `key`), both decodable, and free of `;` -/
def Decodes (unescape : Str → Option Str) (part k v : Str) : Prop :=
  ';' ∉ part ∧ ∃ ke ve, (part = ke ++ '=' :: ve ∨ (part = ke ∧ ve = [] ∧ ke ≠ [])) ∧ '=' ∉ ke ∧ unescape ke = some k ∧ unescape ve = some v

theorem takeWhile_ne {ke rest : Str} (h : '=' ∉ ke) :
    (ke ++ '=' :: rest).takeWhile (· ≠ '=') = ke ∧ (ke ++ '=' :: rest).dropWhile (· ≠ '=') = '=' :: rest := by
  induction ke with
  | nil => simp
  | cons c ke ih =>
    have hc : c ≠ '=' := fun e => h (by simp [e])
    have := ih (fun hm => h (by simp [hm]))
    simpa [hc] using this

theorem takeWhile_all {ke : Str} (h : '=' ∉ ke) : ke.takeWhile (· ≠ '=') = ke ∧ ke.dropWhile (· ≠ '=') = [] := by
  induction ke with
  | nil => simp
  | cons c ke ih =>
    have hc : c ≠ '=' := fun e => h (by simp [e])
    have := ih (fun hm => h (by simp [hm]))
    simpa [hc] using this

theorem queryPart_of {unescape : Str → Option Str} {part k v : Str} (h : Decodes unescape part k v) :
    queryPart unescape part = .ok (some (k, v)) := by
  obtain ⟨h1, ke, ve, h2, h3, h4, h5⟩ := h
  unfold queryPart
  rw [if_neg (by simpa using h1)]
  rcases h2 with rfl | ⟨rfl, rfl, hne⟩
  · rw [if_neg (by simp)]
    simp only [(takeWhile_ne h3).1, (takeWhile_ne h3).2, List.drop_succ_cons, List.drop_zero, h4, h5]
  · rw [if_neg hne]
    simp only [(takeWhile_all h3).1, (takeWhile_all h3).2, List.drop_nil, h4, h5]

theorem decodes_unique {unescape : Str → Option Str} {part k v k' v' : Str} (h : Decodes unescape part k v)
    (h' : Decodes unescape part k' v') : k = k' ∧ v = v' := by
  have := (queryPart_of h).symm.trans (queryPart_of h')
  simpa using this

theorem parseQuery_spec {unescape : Str → Option Str} {parts : List Str}
    (h : ∀ p ∈ parts, p = [] ∨ ∃ k v, Decodes unescape p k v) :
    ∃ kvs, parseQuery unescape parts = .ok kvs ∧
      ∀ k v, (k, v) ∈ kvs ↔ ∃ p ∈ parts, Decodes unescape p k v := by
  induction parts with
  | nil => exact ⟨[], rfl, by simp⟩
  | cons p ps ih =>
    obtain ⟨kvs, e, hm⟩ := ih (fun q hq => h q (by simp [hq]))
    rcases h p (by simp) with rfl | ⟨k, v, hd⟩
    · refine ⟨kvs, ?_, ?_⟩
      · rw [parseQuery, e]; rfl
      · intro k v
        rw [hm]
        constructor
        · rintro ⟨q, hq, hd⟩; exact ⟨q, by simp [hq], hd⟩
        · rintro ⟨q, hq, hd⟩
          rcases List.mem_cons.mp hq with rfl | hq
          · obtain ⟨_, ke, ve, h2, _⟩ := hd
            rcases h2 with h2 | ⟨rfl, _, h3⟩
            · simp at h2
            · exact absurd rfl h3
          · exact ⟨q, hq, hd⟩
    · refine ⟨(k, v) :: kvs, ?_, ?_⟩
      · rw [parseQuery, e, queryPart_of hd]
      · intro k' v'
        rw [List.mem_cons, hm]
        constructor
        · rintro (h1 | ⟨q, hq, hd'⟩)
          · injection h1 with h1 h2; subst h1; subst h2; exact ⟨p, by simp, hd⟩
          · exact ⟨q, by simp [hq], hd'⟩
        · rintro ⟨q, hq, hd'⟩
          rcases List.mem_cons.mp hq with rfl | hq
          · obtain ⟨e1, e2⟩ := decodes_unique hd hd'
            left; rw [e1, e2]
          · exact Or.inr ⟨q, hq, hd'⟩

theorem checkSums_ok {digest : Str → List UInt8 → Str} {content : List UInt8} {kvs : List (Str × Str)} :
    checkSums (hashers digest) content kvs = .ok () ↔ ∀ k v, (k, v) ∈ kvs → k ∈ hashNames → digest k content = v := by
  induction kvs with
  | nil => simp [checkSums]
  | cons kv kvs ih =>
    obtain ⟨k, v⟩ := kv
    rw [checkSums]
    unfold hashers
    by_cases hk : k ∈ hashNames
    · rw [if_pos hk]
      simp only
      by_cases hv : digest k content = v
      · rw [if_neg (by simpa using hv)]
        rw [show (fun name => if name ∈ hashNames then some (digest name) else none) = hashers digest from rfl, ih]
        constructor
        · intro h k' v' hm hn
          rcases List.mem_cons.mp hm with h1 | h1
          · injection h1 with h1 h2; subst h1; subst h2; exact hv
          · exact h k' v' h1 hn
        · intro h k' v' hm hn; exact h k' v' (by simp [hm]) hn
      · rw [if_pos (by simpa using hv)]
        constructor
        · intro h; cases h
        · intro h; exact absurd (h k v (by simp) hk) hv
    · rw [if_neg hk]
      simp only
      rw [show (fun name => if name ∈ hashNames then some (digest name) else none) = hashers digest from rfl, ih]
      constructor
      · intro h k' v' hm hn
        rcases List.mem_cons.mp hm with h1 | h1
        · injection h1 with h1 h2; subst h1; exact absurd hn hk
        · exact h k' v' h1 hn
      · intro h k' v' hm hn; exact h k' v' (by simp [hm]) hn

/-- the checksums a URL fragment promises -/
def Promises (unescape : Str → Option Str) (frag k v : Str) : Prop :=
  k ∈ ["md5".toList, "sha1".toList, "sha224".toList, "sha256".toList, "sha384".toList, "sha512".toList] ∧
  ∃ part ∈ split '&' frag, Decodes unescape part k v

/-- C38 (partial): a download that succeeds returns the body of a 200 response; when every part of the URL fragment can
be decoded, it succeeds exactly when all checksums promised by the fragment are right, in whatever order the map is
iterated.  Without the decoding hypothesis the claim is false: `C38_violated`. -/
theorem C38_checksums_partial {doReq : Str → Option Response} {fragment unescape : Str → Option Str}
    {digest : Str → List UInt8 → Str} {order : List (Str × Str) → List (Str × Str)} {url : Str}
    (horder : ∀ l, (order l).Perm l) :
    (∀ body, get doReq fragment unescape digest order url = .ok body → ∃ r, doReq url = some r ∧ r.status = 200 ∧ r.body = body) ∧
    (∀ frag r, fragment url = some frag → (∀ p ∈ split '&' frag, p = [] ∨ ∃ k v, Decodes unescape p k v) →
      doReq url = some r → r.status = 200 →
      (get doReq fragment unescape digest order url = .ok r.body ↔
        ∀ k v, Promises unescape frag k v → digest k r.body = v)) := by
  constructor
  · intro body h
    unfold get at h
    split at h
    · cases h
    · rename_i r hr
      split at h
      · cases h
      · rename_i hs
        refine ⟨r, hr, by simpa using hs, ?_⟩
        repeat' split at h
        all_goals first | (injection h with h) | cases h
  · intro frag r hf hd hr hs
    unfold get
    rw [hr]
    simp only [hs, ne_eq, not_true, if_false, hf]
    by_cases h0 : frag = []
    · subst h0
      simp only [if_true, true_iff]
      rintro k v ⟨_, p, hp, _, ke, ve, h2, _⟩
      have : p = [] := by simpa [split] using hp
      subst this
      rcases h2 with h2 | ⟨rfl, _, h3⟩
      · simp at h2
      · exact absurd rfl h3
    · rw [if_neg h0]
      obtain ⟨kvs, e, hm⟩ := parseQuery_spec hd
      rw [e]
      simp only
      have key : checkSums (hashers digest) r.body (order kvs) = .ok () ↔
          ∀ k v, Promises unescape frag k v → digest k r.body = v := by
        rw [checkSums_ok]
        constructor
        · rintro h k v ⟨h1, h2⟩
          exact h k v ((horder kvs).mem_iff.mpr ((hm k v).mpr h2)) h1
        · intro h k v h1 h2
          exact h k v ⟨h2, (hm k v).mp ((horder kvs).mem_iff.mp h1)⟩
      rw [← key]
      cases checkSums (hashers digest) r.body (order kvs) with
      | error e => simp
      | ok u => simp

theorem queryPart_iff {unescape : Str → Option Str} {part : Str} {kv : Option (Str × Str)}
    (h : queryPart unescape part = .ok kv) : part = [] ∨ ∃ k v, Decodes unescape part k v := by
  by_cases h0 : part = []
  · exact Or.inl h0
  refine Or.inr ?_
  unfold queryPart at h
  by_cases hs : ';' ∈ part
  · rw [if_pos (by simpa using hs)] at h; cases h
  rw [if_neg (by simpa using hs), if_neg h0] at h
  simp only at h
  have split : part = part.takeWhile (· ≠ '=') ++ part.dropWhile (· ≠ '=') := (List.takeWhile_append_dropWhile).symm
  have hk : '=' ∉ part.takeWhile (· ≠ '=') := by
    intro hm
    have := List.all_takeWhile (p := (· ≠ '=')) (l := part)
    simpa using List.all_eq_true.mp this '=' hm
  generalize hke : part.takeWhile (· ≠ '=') = ke at h split hk
  generalize hve : part.dropWhile (· ≠ '=') = ve at h split
  split at h
  · rename_i k v e1 e2
    refine ⟨k, v, hs, ke, ve.drop 1, ?_, hk, e1, e2⟩
    cases ve with
    | nil => exact Or.inr ⟨by simpa using split, rfl, by rintro rfl; exact h0 (by simpa using split)⟩
    | cons c ve =>
      have : c = '=' := by
        have := List.head?_dropWhile_not (p := (· ≠ '=')) part
        rw [hve] at this
        simpa using this
      subst this
      exact Or.inl (by simpa using split)
  · cases h

theorem parseQuery_decodes {unescape : Str → Option Str} {parts : List Str} {kvs : List (Str × Str)}
    (h : parseQuery unescape parts = .ok kvs) : ∀ p ∈ parts, p = [] ∨ ∃ k v, Decodes unescape p k v := by
  induction parts generalizing kvs with
  | nil => intro p hp; cases hp
  | cons q qs ih =>
    rw [parseQuery] at h
    intro p hp
    split at h
    · rename_i e1 e2
      rcases List.mem_cons.mp hp with rfl | hp
      · exact queryPart_iff e1
      · exact ih e2 p hp
    · rename_i e1 e2
      rcases List.mem_cons.mp hp with rfl | hp
      · exact queryPart_iff e1
      · exact ih e2 p hp
    · cases h

/-- C38, exactly: a download gives `body` if and only if that is the body of a 200 response and the URL has no
readable fragment, or a part of its fragment cannot be decoded (then nothing is checked), or every checksum promised by
the fragment is that of the body.  Otherwise it is an error. -/
theorem C38_exact {doReq : Str → Option Response} {fragment unescape : Str → Option Str}
    {digest : Str → List UInt8 → Str} {order : List (Str × Str) → List (Str × Str)} {url : Str}
    (horder : ∀ l, (order l).Perm l) (body : List UInt8) :
    get doReq fragment unescape digest order url = .ok body ↔
      ∃ r, doReq url = some r ∧ r.status = 200 ∧ r.body = body ∧
        ∀ frag, fragment url = some frag →
          (∃ p ∈ split '&' frag, p ≠ [] ∧ ¬ ∃ k v, Decodes unescape p k v) ∨
          ∀ k v, Promises unescape frag k v → digest k body = v := by
  obtain ⟨h1, h2⟩ := C38_checksums_partial (doReq := doReq) (fragment := fragment) (unescape := unescape)
    (digest := digest) (url := url) horder
  constructor
  · intro h
    obtain ⟨r, hr, hs, hb⟩ := h1 body h
    refine ⟨r, hr, hs, hb, fun frag hf => ?_⟩
    rcases Classical.em (∃ p ∈ split '&' frag, p ≠ [] ∧ ¬ ∃ k v, Decodes unescape p k v) with hx | hx
    · exact Or.inl hx
    · refine Or.inr (hb ▸ (h2 frag r hf (fun p hp => ?_) hr hs).mp (hb ▸ h))
      rcases Classical.em (p = []) with h0 | h0
      · exact Or.inl h0
      · exact Or.inr (Classical.not_not.mp (fun hn => hx ⟨p, hp, h0, hn⟩))
  · rintro ⟨r, hr, hs, rfl, hf⟩
    rcases Classical.em (∃ frag, fragment url = some frag ∧ ∀ p ∈ split '&' frag, p = [] ∨ ∃ k v, Decodes unescape p k v)
      with ⟨frag, e, hd⟩ | hx
    · refine (h2 frag r e hd hr hs).mpr ?_
      rcases hf frag e with ⟨p, hp, h0, hn⟩ | h
      · exact ((hd p hp).resolve_left h0 |> hn).elim
      · exact h
    · unfold get
      rw [hr]
      simp only [hs, ne_eq, not_true, if_false]
      cases hfr : fragment url with
      | none => rfl
      | some frag =>
        simp only
        split
        · rfl
        · split
          · rfl
          · rename_i kvs hq
            exact absurd ⟨frag, hfr, parseQuery_decodes hq⟩ hx

/-- C38 is violated: one part of the fragment that cannot be decoded switches all checks off. -/
theorem C38_violated : ∃ (unescape : Str → Option Str) (digest : Str → List UInt8 → Str) (frag : Str),
    Promises unescape frag "sha256".toList "00".toList ∧ digest "sha256".toList [] ≠ "00".toList ∧
    get (fun _ => some ⟨200, []⟩) (fun _ => some frag) unescape digest id [] = .ok [] := by
  refine ⟨fun s => if '%' ∈ s then none else some s, fun _ _ => "e3".toList, "sha256=00&x=%zz".toList,
    ⟨by decide, "sha256=00".toList, by decide, by decide, "sha256".toList, "00".toList, Or.inl (by decide), by decide, by decide,
      by decide⟩, by decide, by rfl⟩

example : (∀ p ∈ split '&' "sha256=e3&egg=x".toList, p = [] ∨ ∃ k v, Decodes some p k v) ∧
    get (fun _ => some ⟨200, []⟩) (fun _ => some "sha256=e3&egg=x".toList) some (fun _ _ => "e3".toList) id [] = .ok [] ∧
    get (fun _ => some ⟨200, []⟩) (fun _ => some "sha256=e4&egg=x".toList) some (fun _ _ => "e3".toList) id [] = .error () := by
  refine ⟨?_, rfl, rfl⟩
  intro p hp
  have : p = "sha256=e3".toList ∨ p = "egg=x".toList := by
    have e : split '&' "sha256=e3&egg=x".toList = ["sha256=e3".toList, "egg=x".toList] := by decide
    rw [e] at hp; simpa using hp
  right
  rcases this with rfl | rfl
  · exact ⟨_, _, by decide, "sha256".toList, "e3".toList, Or.inl rfl, by decide, rfl, rfl⟩
  · exact ⟨_, _, by decide, "egg".toList, "x".toList, Or.inl rfl, by decide, rfl, rfl⟩

end Repo
