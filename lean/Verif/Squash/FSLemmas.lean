import Verif.Squash.Model
import Verif.Go.PathLemmas
/-! Lemmas about the representation of the file system and the names of its nodes. -/
namespace Squash
open Go

theorem find?_filter_get (S : FS) (P : Path → Bool) (p : Path) :
    FS.get? (S.filter (fun e => P e.1)) p = if P p then S.get? p else none := by
  unfold FS.get?
  induction S with
  | nil => simp
  | cons e S ih =>
    rw [List.filter_cons]
    by_cases he : e.1 = p
    · subst he
      by_cases hP : P e.1 = true
      · simp [hP]
      · simp only [hP]
        rw [if_neg (by simp)]
        rw [ih, if_neg hP]
        simp
    · by_cases hP : P e.1 = true
      · rw [if_pos hP, List.find?_cons_of_neg (by simpa using he), List.find?_cons_of_neg (by simpa using he), ih]
      · rw [if_neg hP, ih, List.find?_cons_of_neg (by simpa using he)]

theorem get?_put (S : FS) (p q : Path) (n : Node) : (S.put p n).get? q = if q = p then some n else S.get? q := by
  unfold FS.put
  by_cases h : q = p
  · subst h; simp [FS.get?]
  · have := find?_filter_get S (fun x => decide (x ≠ p)) q
    rw [if_pos (by simpa using h)] at this
    rw [if_neg h, ← this]
    unfold FS.get?
    rw [List.find?_cons_of_neg (by simpa using fun e => h e.symm)]

theorem get?_delChild (S : FS) (d : Path) (k : Str) (q : Path) :
    (S.delChild d k).get? q = if (d ++ [k]) <+: q then none else S.get? q := by
  unfold FS.delChild
  rw [find?_filter_get S (fun x => !(d ++ [k]).isPrefixOf x)]
  by_cases h : (d ++ [k]) <+: q
  · simp [List.isPrefixOf_iff_prefix.mpr h, h]
  · simp [h]

theorem get?_delOthers (S : FS) (d : Path) (k : Str) (q : Path) :
    (S.delOthers d k).get? q = if d <+: q ∧ q ≠ d ∧ ¬ (d ++ [k]) <+: q then none else S.get? q := by
  unfold FS.delOthers
  rw [find?_filter_get S (fun x => !(d.isPrefixOf x && decide (x ≠ d) && !(d ++ [k]).isPrefixOf x))]
  by_cases h : d <+: q ∧ q ≠ d ∧ ¬ (d ++ [k]) <+: q
  · rw [if_pos h, if_neg (by simp [h.1, h.2.1, h.2.2])]
  · rw [if_neg h, if_pos]
    simp only [Bool.not_eq_true', Bool.eq_false_iff, ne_eq, Bool.and_eq_true, not_and, decide_eq_true_eq, Bool.not_eq_true',
      List.isPrefixOf_iff_prefix]
    intro h1 h2
    apply Classical.byContradiction
    intro h3
    exact h ⟨h1.1, h1.2, h2⟩

theorem get?_delBelow (S : FS) (d q : Path) :
    (S.delBelow d).get? q = if d <+: q ∧ q ≠ d then none else S.get? q := by
  unfold FS.delBelow
  rw [find?_filter_get S (fun x => !(d.isPrefixOf x && decide (x ≠ d)))]
  by_cases h : d <+: q ∧ q ≠ d
  · rw [if_pos h, if_neg (by simp [h.1, h.2])]
  · rw [if_neg h, if_pos]
    simp only [Bool.not_eq_true', Bool.eq_false_iff, ne_eq, Bool.and_eq_true, decide_eq_true_eq, List.isPrefixOf_iff_prefix]
    exact h

theorem get?_isSome_iff (S : FS) (p : Path) : (S.get? p).isSome = true ↔ p ∈ S.map (·.1) := by
  unfold FS.get?
  simp only [Option.isSome_map, List.find?_isSome, List.mem_map, decide_eq_true_eq]

/-! ### node names -/

/-- the keys of the `children` maps -/
def GoodKey (c : Str) : Prop := '/' ∉ c ∧ c ≠ ['.'] ∧ c ≠ ['.', '.']

theorem plainGood {c : Str} (h : Plain c) : GoodKey c := ⟨h.2.2.2, h.2.1, h.2.2.1⟩
theorem GoodKey.plain {c : Str} (h : GoodKey c) (hne : c ≠ []) : Plain c := ⟨hne, h.2.1, h.2.2, h.1⟩

theorem plains_clean {cs : List Str} (h : ∀ c ∈ cs, Plain c) (r : Bool) : CleanElems r cs :=
  ⟨0, cs, by simp, h, fun _ => rfl⟩

theorem render_ne_nil {cs : List Str} (h : ∀ c ∈ cs, Plain c) : render false cs ≠ [] := by
  unfold render
  simp only [Bool.false_eq_true, if_false]
  split
  · simp
  · exact join_ne_nil (by assumption) (fun c hc => (h c hc).1)

theorem isRooted_render_plain {cs : List Str} (h : ∀ c ∈ cs, Plain c) : isRooted (render false cs) = false :=
  isRooted_render (fun c hc => ⟨(h c hc).1, (h c hc).2.2.2⟩)

theorem foldl_join {p cs : Path} (hp : ∀ c ∈ p, GoodKey c) (hcs : ∀ c ∈ cs, Plain c) :
    p.foldl (fun n c => pathJoin [n, c]) (render false cs) = render false (cs ++ p.filter (· ≠ [])) := by
  induction p generalizing cs with
  | nil => simp
  | cons c p ih =>
    rw [List.foldl_cons]
    by_cases hc : c = []
    · subst hc
      have e : pathJoin [render false cs, []] = render false cs := by
        unfold pathJoin
        have : [render false cs, ([] : Str)].filter (· ≠ []) = [render false cs] := by simp [render_ne_nil hcs]
        rw [this]
        show clean (render false cs) = _
        exact clean_render (plains_clean hcs false)
      rw [e, ih (fun d hd => hp d (by simp [hd])) hcs]
      simp
    · have hpl : Plain c := (hp c (by simp)).plain hc
      rw [pathJoin_plain (render_ne_nil hcs) hpl, isRooted_render_plain hcs, elems_render (plains_clean hcs false)]
      rw [ih (fun d hd => hp d (by simp [hd])) (by
        intro d hd
        rcases List.mem_append.mp hd with hd | hd
        · exact hcs d hd
        · rw [List.mem_singleton.mp hd]; exact hpl)]
      simp [hc]

theorem nodeName_eq {p : Path} (hp : ∀ c ∈ p, GoodKey c) : nodeName p = render false (p.filter (· ≠ [])) := by
  have := foldl_join (cs := []) hp (by simp)
  simpa [nodeName, render] using this

theorem takeWhile_reverse_last {s c : Str} (h : '/' ∉ c) :
    ((s ++ '/' :: c).reverse.takeWhile (· ≠ '/')).reverse = c := by
  rw [List.reverse_append, List.reverse_cons, List.append_assoc]
  rw [List.takeWhile_append_of_pos (by simpa using fun a ha (e : a = '/') => h (e ▸ ha))]
  simp

theorem takeWhile_reverse_all {c : Str} (h : '/' ∉ c) : (c.reverse.takeWhile (· ≠ '/')).reverse = c := by
  have : c.reverse.takeWhile (· ≠ '/') = c.reverse := by
    have := List.takeWhile_append_of_pos (p := fun x => decide (x ≠ '/')) (l₁ := c.reverse) (l₂ := [])
      (by simpa using fun a ha (e : a = '/') => h (e ▸ ha))
    simpa using this
  rw [this, List.reverse_reverse]

theorem dropWhile_slash {s c : Str} (h : '/' ∉ c) (hne : c ≠ []) :
    ((s ++ c).reverse.dropWhile (· = '/')).reverse = s ++ c := by
  have : (s ++ c).reverse.dropWhile (· = '/') = (s ++ c).reverse := by
    rw [List.reverse_append]
    obtain ⟨a, l, e⟩ := List.exists_cons_of_ne_nil (l := c.reverse) (by simpa using hne)
    rw [e, List.cons_append, List.dropWhile_cons, if_neg]
    simp only [decide_eq_true_eq]
    intro ea
    apply h
    have : a ∈ c.reverse := by rw [e]; simp
    rw [← ea]; simpa using this
  rw [this, List.reverse_reverse]

theorem pathBase_append {s c : Str} (h : '/' ∉ c) (hne : c ≠ []) : pathBase (s ++ '/' :: c) = c := by
  unfold pathBase pathSplit
  rw [if_neg (by simp)]
  simp only
  have e : s ++ '/' :: c = (s ++ ['/']) ++ c := by simp
  rw [e, dropWhile_slash h hne, ← e, takeWhile_reverse_last h, if_neg hne]

theorem pathBase_plain {c : Str} (h : '/' ∉ c) (hne : c ≠ []) : pathBase c = c := by
  unfold pathBase pathSplit
  rw [if_neg hne]
  simp only
  have := dropWhile_slash (s := []) h hne
  rw [List.nil_append] at this
  rw [this, takeWhile_reverse_all h, if_neg hne]

theorem join_append_last {cs : List Str} {c : Str} (h : cs ≠ []) : join ['/'] (cs ++ [c]) = join ['/'] cs ++ '/' :: c := by
  induction cs with
  | nil => exact absurd rfl h
  | cons d cs ih =>
    cases cs with
    | nil => simp [join]
    | cons e es =>
      have := ih (by simp)
      simp only [List.cons_append] at this ⊢
      rw [join, join, this]
      simp

theorem pathBase_render {cs : List Str} {c : Str} (h : Plain c) : pathBase (render false (cs ++ [c])) = c := by
  have : render false (cs ++ [c]) = join ['/'] (cs ++ [c]) := by simp [render]
  rw [this]
  by_cases hcs : cs = []
  · subst hcs; simp [join, pathBase_plain h.2.2.2 h.1]
  · rw [join_append_last hcs, pathBase_append h.2.2.2 h.1]

theorem base_nodeName {p : Path} {c : Str} (hp : ∀ d ∈ p, GoodKey d) (hc : Plain c) : pathBase (nodeName (p ++ [c])) = c := by
  rw [nodeName_eq (by
    intro d hd
    rcases List.mem_append.mp hd with hd | hd
    · exact hp d hd
    · rw [List.mem_singleton.mp hd]; exact plainGood hc)]
  rw [List.filter_append]
  have : [c].filter (· ≠ []) = [c] := by simp [hc.1]
  rw [this, pathBase_render hc]

theorem base_root : pathBase (nodeName []) = ['.'] := by decide

theorem plain_opq : Plain opqName := ⟨by decide, by decide, by decide, by decide⟩

end Squash
