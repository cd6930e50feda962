import Verif.Bdist.Hooks
import Verif.Bdist.PropsInside
/-! Relative paths, and the rows of RECORD. -/
namespace Bdist
open Go Fsutil Python

/-! ### relative paths -/

theorem plain_clean {r : Bool} {cs : List Str} (h : ∀ c ∈ cs, Plain c) : CleanElems r cs := ⟨0, cs, by simp, h, by simp⟩

theorem ups_clean {n : Nat} {ds : List Str} (h : ∀ c ∈ ds, Plain c) : CleanElems false (List.replicate n "..".toList ++ ds) :=
  ⟨n, ds, rfl, h, by simp⟩

theorem relElems_leads : ∀ bs ts : List Str, ∃ common up down, bs = common ++ up ∧ ts = common ++ down ∧
    (∀ x, up.head? = some x → down.head? ≠ some x) ∧ relElems bs ts = List.replicate up.length "..".toList ++ down
  | [], ts => ⟨[], [], ts, rfl, rfl, fun _ h => (nomatch h), by cases ts <;> rfl⟩
  | b :: bs, [] => ⟨[], b :: bs, [], rfl, rfl, by simp, rfl⟩
  | b :: bs, t :: ts => by
    by_cases h : b = t
    · subst h
      obtain ⟨c, u, d, h1, h2, h3, h4⟩ := relElems_leads bs ts
      exact ⟨b :: c, u, d, by rw [h1]; rfl, by rw [h2]; rfl, h3, by rw [relElems, if_pos rfl, h4]⟩
    · refine ⟨[], b :: bs, t :: ts, rfl, rfl, ?_, by rw [relElems, if_neg h]; rfl⟩
      intro x hx e
      rw [List.head?_cons] at hx e
      cases hx
      cases e
      exact h rfl

theorem elems_slash {cs : List Str} (h : ∀ c ∈ cs, Plain c) : cleanElems true (split '/' ('/' :: render false cs)) = cs := by
  by_cases hc : cs = []
  · subst hc; decide
  · have : '/' :: render false cs = render true cs := by unfold render; simp [hc]
    rw [this, elems_render (plain_clean h)]

theorem rel_render {bs ts : List Str} (hb : ∀ c ∈ bs, Plain c) (ht : ∀ c ∈ ts, Plain c) :
    filepathRel ('/' :: render false bs) ('/' :: render false ts) = render false (relElems bs ts) := by
  unfold filepathRel
  rw [elems_slash hb, elems_slash ht]
  cases relElems bs ts <;> rfl

/-- popping the elements again -/
theorem foldl_ups {st : List Str} {up : List Str} (hu : ∀ c ∈ up, Plain c) :
    (List.replicate up.length "..".toList).foldl (cleanStep false) (up ++ st) = st := by
  induction up with
  | nil => rfl
  | cons c up ih =>
    rw [List.length_cons, List.replicate_succ, List.foldl_cons, List.cons_append]
    have : cleanStep false (c :: (up ++ st)) "..".toList = up ++ st := by
      unfold cleanStep
      rw [if_neg (by decide), if_pos (by decide)]
      simp only
      rw [if_neg (hu c (by simp)).2.2.1]
    rw [this, ih (fun c hc => hu c (List.mem_cons_of_mem _ hc))]

theorem leads_back {common up down : List Str} (_hc : ∀ c ∈ common, Plain c) (hu : ∀ c ∈ up, Plain c) (hd : ∀ c ∈ down, Plain c) :
    (List.replicate up.length "..".toList ++ down).foldl (cleanStep false) (common ++ up).reverse = (common ++ down).reverse := by
  rw [List.foldl_append, List.reverse_append]
  have : up.reverse.length = up.length := by simp
  rw [← this, foldl_ups (fun c h => hu c (List.mem_reverse.mp h)), foldl_plain hd, List.reverse_append]

namespace Spec

/-- from the directory `base`, the file `n` is reached by the path `name`: up to the last directory they have in common, and
down from there -/
def Leads (base n name : Str) : Prop :=
  ∃ common up down, (∀ c ∈ common ++ (up ++ down), Plain c) ∧ base = render false (common ++ up) ∧ n = render false (common ++ down) ∧
    (∀ x, up.head? = some x → down.head? ≠ some x) ∧ name = render false (List.replicate up.length "..".toList ++ down)

end Spec

theorem render_foldl {cs st : List Str} (h : ∀ c ∈ cs, c ≠ [] ∧ '/' ∉ c) :
    (split '/' (render false cs)).foldl (cleanStep false) st = cs.foldl (cleanStep false) st := by
  rw [split_render (fun c hc => (h c hc).2)]
  simp only [Bool.false_eq_true, if_false]
  split
  · rename_i e
    subst e
    rfl
  · rfl

theorem join_render {bs es : List Str} (hb : ∀ c ∈ bs, Plain c) (he : CleanElems false es) :
    pathJoin [render false bs, render false es] = render false (es.foldl (cleanStep false) bs.reverse).reverse := by
  have h1 : render false bs ≠ [] := render_ne_nil' (fun c hc => (hb c hc).1)
  have h2 : render false es ≠ [] := render_ne_nil' (fun c hc => (he.elem c hc).1)
  rw [join_two h1, if_neg h2]
  unfold clean
  have hr : isRooted (render false bs ++ '/' :: render false es) = false := by
    rw [isRooted_append h1]
    exact isRooted_render (fun c hc => ⟨(hb c hc).1, (hb c hc).2.2.2⟩)
  rw [hr, split_append]
  unfold cleanElems
  rw [List.foldl_append, render_foldl (fun c hc => ⟨(hb c hc).1, (hb c hc).2.2.2⟩),
    render_foldl (fun c hc => ⟨(he.elem c hc).1, (he.elem c hc).2.2⟩), foldl_plain hb, List.append_nil]

theorem leads_join {base n name : Str} (h : Spec.Leads base n name) : pathJoin [base, name] = n := by
  obtain ⟨c, u, d, hp, rfl, rfl, _, rfl⟩ := h
  have hc : ∀ x ∈ c, Plain x := fun x hx => hp x (by simp [hx])
  have hu : ∀ x ∈ u, Plain x := fun x hx => hp x (by simp [hx])
  have hd : ∀ x ∈ d, Plain x := fun x hx => hp x (by simp [hx])
  rw [join_render (fun x hx => by rcases List.mem_append.mp hx with h | h; exact hc x h; exact hu x h) (ups_clean hd),
    leads_back hc hu hd, List.reverse_reverse]

theorem leads_inj {base n n' name : Str} (h : Spec.Leads base n name) (h' : Spec.Leads base n' name) : n = n' := by
  rw [← leads_join h, leads_join h']

theorem leads_rel {bs ts : List Str} (hb : ∀ c ∈ bs, Plain c) (ht : ∀ c ∈ ts, Plain c) :
    Spec.Leads (render false bs) (render false ts) (filepathRel ('/' :: render false bs) ('/' :: render false ts)) := by
  obtain ⟨c, u, d, h1, h2, h3, h4⟩ := relElems_leads bs ts
  refine ⟨c, u, d, ?_, by rw [h1], by rw [h2], h3, by rw [rel_render hb ht, h4]⟩
  subst h1 h2
  intro x hx
  simp only [List.mem_append] at hx
  rcases hx with hx | hx | hx
  · exact hb x (by simp [hx])
  · exact hb x (by simp [hx])
  · exact ht x (by simp [hx])

/-- the path is unique -/
theorem leads_fun {base n name name' : Str} (h : Spec.Leads base n name) (h' : Spec.Leads base n name') : name = name' := by
  have key : ∀ {c u d c' u' d' : List Str}, c ++ u = c' ++ u' → c ++ d = c' ++ d' → (∀ x, u.head? = some x → d.head? ≠ some x) →
      (∀ x, u'.head? = some x → d'.head? ≠ some x) → u = u' ∧ d = d' := by
    intro c
    induction c with
    | nil =>
      intro u d c' u' d' h1 h2 h3 _
      cases c' with
      | nil => exact ⟨by simpa using h1, by simpa using h2⟩
      | cons x c' =>
        simp only [List.nil_append, List.cons_append] at h1 h2
        subst h1 h2
        exact absurd rfl (h3 x rfl)
    | cons y c ih =>
      intro u d c' u' d' h1 h2 h3 h4
      cases c' with
      | nil =>
        simp only [List.nil_append, List.cons_append] at h1 h2
        subst h1 h2
        exact absurd rfl (h4 y rfl)
      | cons x c' =>
        simp only [List.cons_append, List.cons.injEq] at h1 h2
        exact ih h1.2 h2.2 h3 h4
  obtain ⟨c, u, d, hp, rfl, rfl, h3, rfl⟩ := h
  obtain ⟨c', u', d', hp', e1, e2, h3', rfl⟩ := h'
  have pl : ∀ {a b : List Str} {q : List Str}, (∀ x ∈ q, Plain x) → (∀ x ∈ a ++ b, x ∈ q) → CleanElems false (a ++ b) :=
    fun hq hm => plain_clean (fun x hx => hq x (hm x hx))
  have e1 := (render_inj (pl hp (by intro x hx; rcases List.mem_append.mp hx with h | h <;> simp [h]))
    (pl hp' (by intro x hx; rcases List.mem_append.mp hx with h | h <;> simp [h])) e1).2
  have e2 := (render_inj (pl hp (by intro x hx; rcases List.mem_append.mp hx with h | h <;> simp [h]))
    (pl hp' (by intro x hx; rcases List.mem_append.mp hx with h | h <;> simp [h])) e2).2
  obtain ⟨rfl, rfl⟩ := key e1 e2 h3 h3'
  rfl

/-- names that do not lead upwards have ordinary elements only -/
theorem down_elems {k : Str} (hr : Spec.Rel k) (hd : Spec.Down k) : ∃ ts, (∀ c ∈ ts, Plain c) ∧ k = render false ts := by
  rw [down_iff] at hd
  have hc := cleanElems_ok (rooted := false) (cs := split '/' k) (fun _ h => split_no_sep h)
  have hk : k = render false (cleanElems false (split '/' k)) := by
    conv => lhs; rw [← hr.1]
    unfold clean
    rw [hr.2]
  refine ⟨_, ?_, hk⟩
  obtain ⟨n, ds, e, hp, _⟩ := hc
  rw [e] at hd ⊢
  cases n with
  | zero => simpa using hp
  | succ n => exact absurd (by simp [List.replicate_succ]) hd

/-! ### the rows -/

namespace Spec

/-- the size of a file: that of the entry of the archive, or what the file says of itself -/
inductive HasSize : Ref → Int → Prop
  | zip (h : ZHdr) (c : Option Bytes) (r : Option (Str × Int)) : HasSize (.zip h c r) h.size
  | other (n : Str) (i : Hdr) (c : Option Bytes) : HasSize (.other ⟨n, some i, c⟩) i.size
  | unknown (n : Str) (c : Option Bytes) : HasSize (.other ⟨n, none, c⟩) 0

/-- the checksum and size in the row for `r` called `name`: for a script whose first line was rewritten those from before;
for byte code none; for all others the digest of the content, and the size -/
def RowFor (digest : Str → Bytes → Str) (algo name : Str) (r : Ref) (hash size : Str) : Prop :=
  (∃ h c rec, r = .zip h c (some rec) ∧ hash = rec.1 ∧ size = itoa rec.2) ∨
  (¬ ∃ h c rec, r = .zip h c (some rec)) ∧
    ((∃ b, name = b ++ ".pyc".toList) ∧ hash = [] ∧ size = [] ∨
     (¬ ∃ b, name = b ++ ".pyc".toList) ∧ ∃ c, r.content = some c ∧ hash = algo ++ "=".toList ++ digest algo c ∧ ∃ k, HasSize r k ∧ size = itoa k)

end Spec

theorem hasSize_iff {r : Ref} {k : Int} : Spec.HasSize r k ↔ k = r.size := by
  constructor
  · rintro (_ | _ | _) <;> rfl
  · rintro rfl
    match r with
    | .zip h c q => exact .zip h c q
    | .other ⟨n, some i, c⟩ => exact .other n i c
    | .other ⟨n, none, c⟩ => exact .unknown n c

theorem recordFile_zip (env : HookEnv) (algo base : Str) (h : ZHdr) (c : Option Bytes) (rec : Str × Int) :
    recordFile env algo base (.zip h c (some rec)) = .ok [filepathRel ('/' :: base) ('/' :: (Ref.zip h c (some rec)).fullName), rec.1, itoa rec.2] :=
  rfl

theorem recordFile_plain (env : HookEnv) (algo base : Str) {r : Ref} (hr : ¬ ∃ h c rec, r = .zip h c (some rec)) :
    recordFile env algo base r =
      if hasSuffix (filepathRel ('/' :: base) ('/' :: r.fullName)) ".pyc".toList then .ok [filepathRel ('/' :: base) ('/' :: r.fullName), [], []]
      else match r.content with
        | none => .error ()
        | some c => .ok [filepathRel ('/' :: base) ('/' :: r.fullName), algo ++ "=".toList ++ env.digest algo c, itoa r.size] := by
  cases r with
  | other f => rfl
  | zip h c rec =>
    cases rec with
    | none => rfl
    | some rec => exact absurd ⟨h, c, rec, rfl⟩ hr

theorem recordFile_ok {env : HookEnv} {algo base : Str} {r : Ref} {row : List Str} :
    recordFile env algo base r = .ok row ↔ ∃ hash size, row = [filepathRel ('/' :: base) ('/' :: r.fullName), hash, size] ∧
      Spec.RowFor env.digest algo (filepathRel ('/' :: base) ('/' :: r.fullName)) r hash size := by
  by_cases hr : ∃ h c rec, r = .zip h c (some rec)
  · obtain ⟨h, c, rec, rfl⟩ := hr
    rw [recordFile_zip]
    constructor
    · intro h1
      cases h1
      exact ⟨_, _, rfl, Or.inl ⟨h, c, rec, rfl, rfl, rfl⟩⟩
    · rintro ⟨hash, size, rfl, h1 | ⟨h1, _⟩⟩
      · obtain ⟨_, _, _, e, rfl, rfl⟩ := h1
        cases e
        rfl
      · exact absurd ⟨h, c, rec, rfl⟩ h1
  · rw [recordFile_plain env algo base hr]
    by_cases hp : hasSuffix (filepathRel ('/' :: base) ('/' :: r.fullName)) ".pyc".toList = true
    · rw [if_pos hp]
      have hp' := (hasSuffix_iff _ _).mp hp
      constructor
      · intro h1
        cases h1
        exact ⟨_, _, rfl, Or.inr ⟨hr, Or.inl ⟨hp', rfl, rfl⟩⟩⟩
      · rintro ⟨hash, size, rfl, h1 | ⟨_, ⟨_, rfl, rfl⟩ | ⟨h1, _⟩⟩⟩
        · obtain ⟨h, c, rec, e, _⟩ := h1
          exact absurd ⟨h, c, rec, e⟩ hr
        · rfl
        · exact absurd hp' h1
    · rw [if_neg hp]
      have hp' := fun h => hp ((hasSuffix_iff _ _).mpr h)
      cases hc : r.content with
      | none =>
        constructor
        · intro h1; cases h1
        · rintro ⟨hash, size, rfl, h1 | ⟨_, ⟨h1, _⟩ | ⟨_, c, h1, _⟩⟩⟩
          · obtain ⟨h, c, rec, e, _⟩ := h1
            exact absurd ⟨h, c, rec, e⟩ hr
          · exact absurd h1 hp'
          · rw [hc] at h1; cases h1
      | some c =>
        constructor
        · intro h1
          cases h1
          exact ⟨_, _, rfl, Or.inr ⟨hr, Or.inr ⟨hp', c, hc, rfl, _, hasSize_iff.mpr rfl, rfl⟩⟩⟩
        · rintro ⟨hash, size, rfl, h1 | ⟨_, ⟨h1, _⟩ | ⟨_, c', h1, rfl, k, hk, rfl⟩⟩⟩
          · obtain ⟨h, c, rec, e, _⟩ := h1
            exact absurd ⟨h, c, rec, e⟩ hr
          · exact absurd h1 hp'
          · rw [hc] at h1; cases h1; rw [hasSize_iff.mp hk]

theorem recordRows_ok {env : HookEnv} {algo base : Str} : ∀ {l : List (Str × Ref)} {rows : List (List Str)},
    recordRows env algo base l = .ok rows →
    (∀ row, row ∈ rows ↔ ∃ e ∈ l, e.2.isDir = false ∧ recordFile env algo base e.2 = .ok row) ∧
    rows.map (fun row => row.headD []) = (l.filter (fun e => !e.2.isDir)).map (fun e => filepathRel ('/' :: base) ('/' :: e.2.fullName))
  | [], rows, h => by
    cases h
    simp
  | e :: es, rows, h => by
    rw [recordRows] at h
    by_cases hd : e.2.isDir = true
    · rw [if_pos hd] at h
      obtain ⟨h1, h2⟩ := recordRows_ok h
      refine ⟨?_, by rw [h2, List.filter_cons_of_neg (by simp [hd])]⟩
      intro row
      rw [h1]
      constructor
      · rintro ⟨x, hx, hr⟩; exact ⟨x, List.mem_cons_of_mem _ hx, hr⟩
      · rintro ⟨x, hx, h3, h4⟩
        rcases List.mem_cons.mp hx with rfl | hx
        · rw [hd] at h3; cases h3
        · exact ⟨x, hx, h3, h4⟩
    · rw [if_neg hd] at h
      have hd : e.2.isDir = false := by simpa using hd
      cases hf : recordFile env algo base e.2 with
      | error x => rw [hf] at h; cases h
      | ok row0 =>
        rw [hf] at h
        simp only at h
        cases hrest : recordRows env algo base es with
        | error x => rw [hrest] at h; cases h
        | ok rows0 =>
          rw [hrest] at h
          cases h
          obtain ⟨h1, h2⟩ := recordRows_ok hrest
          constructor
          · intro row
            rw [List.mem_cons, h1]
            constructor
            · rintro (rfl | ⟨x, hx, hr⟩)
              · exact ⟨e, List.mem_cons_self .., hd, hf⟩
              · exact ⟨x, List.mem_cons_of_mem _ hx, hr⟩
            · rintro ⟨x, hx, h3, h4⟩
              rcases List.mem_cons.mp hx with rfl | hx
              · rw [hf] at h4; cases h4; exact Or.inl rfl
              · exact Or.inr ⟨x, hx, h3, h4⟩
          · rw [List.map_cons, h2, List.filter_cons_of_pos (by simp [hd]), List.map_cons]
            congr 1
            obtain ⟨hash, size, rfl, _⟩ := recordFile_ok.mp hf
            rfl

theorem recordRows_error {env : HookEnv} {algo base : Str} : ∀ {l : List (Str × Ref)},
    recordRows env algo base l = .error () ↔ ∃ e ∈ l, e.2.isDir = false ∧ recordFile env algo base e.2 = .error ()
  | [] => by simp [recordRows]
  | e :: es => by
    rw [recordRows]
    by_cases hd : e.2.isDir = true
    · rw [if_pos hd, recordRows_error]
      constructor
      · rintro ⟨x, hx, hr⟩; exact ⟨x, List.mem_cons_of_mem _ hx, hr⟩
      · rintro ⟨x, hx, h3, h4⟩
        rcases List.mem_cons.mp hx with rfl | hx
        · rw [hd] at h3; cases h3
        · exact ⟨x, hx, h3, h4⟩
    · rw [if_neg hd]
      have hd : e.2.isDir = false := by simpa using hd
      cases hf : recordFile env algo base e.2 with
      | error x => exact ⟨fun _ => ⟨e, List.mem_cons_self .., hd, hf⟩, fun _ => rfl⟩
      | ok row0 =>
        simp only
        have ih := recordRows_error (env := env) (algo := algo) (base := base) (l := es)
        cases hrest : recordRows env algo base es with
        | error x =>
          refine ⟨fun _ => ?_, fun _ => rfl⟩
          obtain ⟨y, hy, hr⟩ := ih.mp (by rw [hrest])
          exact ⟨y, List.mem_cons_of_mem _ hy, hr⟩
        | ok rows0 =>
          refine ⟨fun h => (nomatch h), ?_⟩
          rintro ⟨x, hx, h3, h4⟩
          rcases List.mem_cons.mp hx with rfl | hx
          · rw [hf] at h4; cases h4
          · have := ih.mpr ⟨x, hx, h3, h4⟩
            rw [hrest] at this; cases this

theorem rowLess_weak (P : List Str → Prop) : StrictWeak rowLess P where
  irrefl := by intro a _; simp [rowLess, List.lt_irrefl]
  trans := by
    intro a b c _ _ _ h1 h2
    simp only [rowLess, decide_eq_true_eq] at h1 h2 ⊢
    exact List.lt_trans h1 h2
  incomp := by
    intro a b c _ _ _ h1 h2 h3 h4
    simp only [rowLess, decide_eq_false_iff_not] at h1 h2 h3 h4 ⊢
    have e1 : a.headD [] = b.headD [] := List.le_antisymm h2 h1
    have e2 : b.headD [] = c.headD [] := List.le_antisymm h4 h3
    rw [e1, e2]
    exact ⟨List.lt_irrefl _, List.lt_irrefl _⟩

/-- sorting rows with different names -/
theorem rows_sorted {sort : (List Str → List Str → Bool) → List (List Str) → List (List Str)} (hs : SortSlice sort) {rows : List (List Str)}
    (hn : (rows.map (fun row => row.headD [])).Nodup) : (sort rowLess rows).Pairwise (fun a b => a.headD [] < b.headD []) := by
  have h1 := hs.sorted rowLess rows (rowLess_weak _)
  have h2 : ((sort rowLess rows).map (fun row => row.headD [])).Nodup := ((hs.perm rowLess rows).map _).nodup_iff.mpr hn
  have h3 : (sort rowLess rows).Pairwise (fun a b => a.headD [] ≠ b.headD []) := List.pairwise_map.mp h2
  refine (h1.and h3).imp ?_
  rintro a b ⟨h4, h5⟩
  simp only [rowLess, decide_eq_false_iff_not] at h4
  refine Classical.byContradiction fun h6 => h5 ?_
  exact List.le_antisymm h4 h6

/-- sorted rows are determined by which rows there are -/
theorem sorted_ext {l l' : List (List Str)} (h : l.Pairwise (fun a b => a.headD [] < b.headD []))
    (h' : l'.Pairwise (fun a b => a.headD [] < b.headD [])) (hm : ∀ x, x ∈ l ↔ x ∈ l') : l = l' := by
  have nd : ∀ {l : List (List Str)}, l.Pairwise (fun a b => a.headD [] < b.headD []) → l.Nodup := by
    intro l h
    refine h.imp ?_
    rintro a b h1 rfl
    exact List.lt_irrefl _ h1
  refine List.Perm.eq_of_pairwise (le := fun a b => a.headD [] < b.headD []) ?_ h h'
    ((List.perm_ext_iff_of_nodup (nd h) (nd h')).mpr hm)
  intro a b _ _ h1 h2
  exact absurd (List.lt_trans h1 h2) (List.lt_irrefl _)

end Bdist
