import Verif.Bdist.ExtCompile
import Verif.Bdist.CommandLemmas
/-! What `ExternalCompiler` does to the file system. -/
namespace Bdist
open Go Fsutil Python

theorem Host.set_same (h : Host) (p : List Str) (n : Node) : h.set p n p = some n := if_pos rfl

theorem Host.set_other (h : Host) {p q : List Str} (n : Node) (e : q ≠ p) : h.set p n q = h q := if_neg e

theorem mem_beginnings {p q : List Str} : q ∈ beginnings p ↔ q <+: p := by
  unfold beginnings
  rw [List.mem_map]
  constructor
  · rintro ⟨n, _, rfl⟩; exact List.take_prefix n p
  · intro h
    refine ⟨q.length, List.mem_range.mpr (Nat.lt_succ_of_le h.length_le), ?_⟩
    obtain ⟨t, rfl⟩ := h
    simp

/-- whatever the order: the directories are made -/
theorem ensure_ok {h : Host} {l : List (List Str)} (hl : ∀ p ∈ l, ∀ c i, h p ≠ some (.leaf c i)) :
    (l.foldl ensureDir (h, true)).2 = true ∧ ∀ q, (l.foldl ensureDir (h, true)).1 q = if q ∈ l then some .dir else h q := by
  induction l generalizing h with
  | nil => exact ⟨rfl, fun q => by simp⟩
  | cons p l ih =>
    have hp := hl p (by simp)
    have step : ∃ h', ensureDir (h, true) p = (h', true) ∧ ∀ q, h' q = if q = p then some .dir else h q := by
      unfold ensureDir
      simp only [if_true]
      cases e : h p with
      | none => exact ⟨_, rfl, fun q => rfl⟩
      | some n =>
        cases n with
        | leaf c i => exact absurd e (hp c i)
        | dir =>
          refine ⟨h, rfl, fun q => ?_⟩
          split
          · rename_i x; rw [x, e]
          · rfl
    obtain ⟨h', e, hq⟩ := step
    rw [List.foldl_cons, e]
    obtain ⟨i1, i2⟩ := ih (h := h') (by
      intro q hm c i
      rw [hq]
      split
      · simp
      · exact hl q (by simp [hm]) c i)
    refine ⟨i1, fun q => ?_⟩
    rw [i2, hq]
    by_cases a : q ∈ l
    · simp [a]
    · by_cases b : q = p <;> simp [a, b]

theorem ensure_false (h : Host) (l : List (List Str)) : l.foldl ensureDir (h, false) = (h, false) := by
  induction l with
  | nil => rfl
  | cons p l ih => rw [List.foldl_cons]; exact ih

/-- something other than a directory is in the way -/
theorem ensure_fails {h : Host} {l : List (List Str)} {p : List Str} (hp : p ∈ l) {c : Option Bytes} {i : Hdr} (hl : h p = some (.leaf c i)) :
    (l.foldl ensureDir (h, true)).2 = false := by
  induction l generalizing h with
  | nil => cases hp
  | cons q l ih =>
    rw [List.foldl_cons]
    by_cases e : p = q
    · subst e
      have : ensureDir (h, true) p = (h, false) := by
        unfold ensureDir
        simp only [if_true, hl]
      rw [this, ensure_false]
    · have hp' := (List.mem_cons.mp hp).resolve_left e
      have hstep : (ensureDir (h, true) q).1 p = h p := by
        unfold ensureDir
        simp only [if_true]
        split
        · exact Host.set_other h _ e
        · rfl
        · rfl
      cases hx : ensureDir (h, true) q with
      | mk h' b =>
        rw [hx] at hstep
        cases b with
        | false => rw [ensure_false]
        | true => exact ih hp' (hstep.trans hl)

/-- only the missing directories are made -/
theorem ensure_only (h : Host) (b : Bool) (l : List (List Str)) (q : List Str) :
    (l.foldl ensureDir (h, b)).1 q = h q ∨ q ∈ l ∧ h q = none ∧ (l.foldl ensureDir (h, b)).1 q = some .dir := by
  induction l generalizing h b with
  | nil => exact Or.inl rfl
  | cons p l ih =>
    rw [List.foldl_cons]
    have step : (ensureDir (h, b) p).1 q = h q ∨ q = p ∧ h q = none ∧ (ensureDir (h, b) p).1 q = some .dir := by
      unfold ensureDir
      split
      · split
        · rename_i e
          by_cases x : q = p
          · subst x; exact Or.inr ⟨rfl, e, Host.set_same ..⟩
          · exact Or.inl (Host.set_other _ _ x)
        · exact Or.inl rfl
        · exact Or.inl rfl
      · exact Or.inl rfl
    cases hx : ensureDir (h, b) p with
    | mk h' b' =>
      rw [hx] at step
      rcases ih h' b' with e | ⟨e1, e2, e3⟩
      · rcases step with s | ⟨s1, s2, s3⟩
        · exact Or.inl (e.trans s)
        · exact Or.inr ⟨by simp [s1], s2, e.trans s3⟩
      · rcases step with s | ⟨s1, s2, s3⟩
        · exact Or.inr ⟨by simp [e1], s ▸ e2, e3⟩
        · exact absurd (e2.symm.trans s3) (by simp)

/-! ### paths -/

theorem host_render {cs : List Str} (h : ∀ c ∈ cs, Plain c) : hostPath (render true cs) = cs := elems_render (plain_clean h)

/-- the place of a source in the temporary directory -/
theorem host_join {ts ns : List Str} (ht : ∀ c ∈ ts, Plain c) (hn : ∀ c ∈ ns, Plain c) :
    pathJoin [render true ts, render false ns] = render true (ts ++ ns) := by
  have h1 : render true ts ≠ [] := by simp [render]
  have h2 : render false ns ≠ [] := render_ne_nil' (fun c hc => (hn c hc).1)
  unfold pathJoin
  have : [render true ts, render false ns].filter (· ≠ []) = [render true ts, render false ns] := by simp [h1, h2]
  rw [this]
  simp only
  have ej : join ['/'] [render true ts, render false ns] = render true ts ++ '/' :: render false ns := by simp [join]
  unfold clean
  have hr : isRooted (render true ts ++ '/' :: render false ns) = true := rfl
  rw [ej, hr, split_append, split_render (rooted := false) (fun c hc => (hn c hc).2.2.2)]
  congr 1
  simp only [Bool.false_eq_true, if_false]
  split
  · rename_i e
    subst e
    have : cleanElems true (split '/' (render true ts) ++ [['.']]) = cleanElems true (split '/' (render true ts)) := by
      unfold cleanElems
      rw [List.foldl_append]
      simp [cleanStep]
    rw [this, elems_render (plain_clean ht), List.append_nil]
  · rw [cleanElems_append_plain hn, elems_render (plain_clean ht)]

/-- the elements of a relative path -/
abbrev elems (n : Str) : List Str := cleanElems false (split '/' n)

/-- the name of a source that is written to the temporary directory -/
def Named (r : Ref) : Prop := (∀ c ∈ elems r.fullName, Plain c) ∧ r.fullName = render false (elems r.fullName)

theorem named_of {r : Ref} (hr : Spec.Rel r.fullName) (hd : Spec.Down r.fullName) : Named r := by
  obtain ⟨ts, h1, h2⟩ := down_elems hr hd
  have : elems r.fullName = ts := by unfold elems; rw [h2]; exact elems_render (plain_clean h1)
  exact ⟨by rw [this]; exact h1, by rw [this]; exact h2⟩

/-- `writeFile` by the elements of the path -/
theorem writeFile_eq {e : Machine} (ht : ∀ c ∈ e.tmp, Plain c) (hne : e.tmp ≠ []) (h : Host) {r : Ref} (hr : Named r) :
    writeFile e h r = match mkdirAll h (e.tmp ++ elems r.fullName).dropLast with
      | (h1, false) => (h1, false)
      | (h1, true) => match h1 (e.tmp ++ elems r.fullName) with
        | some .dir => (h1, false)
        | _ => match r.content with
          | none => (h1.set (e.tmp ++ elems r.fullName) (.leaf none (e.info 0 0)), false)
          | some c => (h1.set (e.tmp ++ elems r.fullName) (.leaf (some c) (e.info c.length r.modTime)), true) := by
  have hall : ∀ c ∈ e.tmp ++ elems r.fullName, Plain c := by
    intro c hc
    rcases List.mem_append.mp hc with h | h
    · exact ht c h
    · exact hr.1 c h
  have hj : pathJoin [render true e.tmp, r.fullName] = render true (e.tmp ++ elems r.fullName) := by
    conv => lhs; rw [hr.2]
    exact host_join ht hr.1
  have hd : hostPath (pathDir (render true (e.tmp ++ elems r.fullName))) = (e.tmp ++ elems r.fullName).dropLast := by
    have hn : e.tmp ++ elems r.fullName ≠ [] := by simp [hne]
    generalize e.tmp ++ elems r.fullName = l at hn hall
    have := List.dropLast_concat_getLast hn
    conv => lhs; rw [← this]
    rw [pathDir_render (plain_clean (by rw [this]; exact hall)), host_render (fun c hc => hall c (List.dropLast_subset l hc))]
  unfold writeFile
  simp only
  rw [hj, hd, host_render hall]
  rfl

/-! ### writing the sources -/

/-- the temporary directory is new and empty -/
structure Ready (ts : List Str) (h : Host) : Prop where
  dirs : ∀ p, p <+: ts → h p = some .dir
  empty : ∀ q, q ≠ [] → h (ts ++ q) = none

/-- the sources can be written: they can be read, and none is where another needs a directory -/
def Writable (srcs : List Ref) : Prop :=
  (∀ r ∈ srcs, r.content ≠ none ∧ elems r.fullName ≠ []) ∧
  ∀ r ∈ srcs, ∀ r' ∈ srcs, elems r.fullName <+: elems r'.fullName → elems r.fullName = elems r'.fullName

/-- the sources have been written -/
structure Written (e : Machine) (h0 : Host) (srcs : List Ref) (h : Host) : Prop where
  file : ∀ r ∈ srcs, ∃ c, r.content = some c ∧ h (e.tmp ++ elems r.fullName) = some (.leaf (some c) (e.info c.length r.modTime))
  dirs : ∀ q r, r ∈ srcs → q ≠ elems r.fullName → q <+: elems r.fullName → h (e.tmp ++ q) = some .dir
  rest : ∀ p, (∀ q r, r ∈ srcs → q <+: elems r.fullName → p ≠ e.tmp ++ q) → h p = h0 p

theorem prefix_dropLast {α : Type} {p l : List α} (h : p <+: l) (hne : p ≠ l) : p <+: l.dropLast := by
  obtain ⟨t, rfl⟩ := h
  have ht : t ≠ [] := by rintro rfl; exact hne (by simp)
  rw [List.dropLast_append_of_ne_nil ht]
  exact List.prefix_append ..

theorem dropLast_ne {α : Type} {p l : List α} (hl : l ≠ []) (h : p <+: l.dropLast) : p ≠ l := by
  rintro rfl
  have := h.length_le
  rw [List.length_dropLast] at this
  have := List.length_pos_iff.mpr hl
  omega

theorem write_step {e : Machine} (ht : ∀ c ∈ e.tmp, Plain c) (hne : e.tmp ≠ []) {h0 h : Host} (hr0 : Ready e.tmp h0) {done : List Ref}
    (hw : Written e h0 done h) (hok : Writable done) {r : Ref} (hr : Named r) (hnew : ∀ r' ∈ done, elems r'.fullName ≠ elems r.fullName) :
    (∃ h', writeFile e h r = (h', true) ∧ Writable (r :: done) ∧ Written e h0 (r :: done) h') ∨
    ((writeFile e h r).2 = false ∧ ¬ Writable (r :: done)) := by
  rw [writeFile_eq ht hne h hr]
  have hlne : e.tmp ++ elems r.fullName ≠ [] := by simp [hne]
  -- what is on the way
  have hup : ∀ p, p <+: e.tmp → h p = some .dir := by
    intro p hp
    by_cases x : ∃ q r', r' ∈ done ∧ q <+: elems r'.fullName ∧ p = e.tmp ++ q
    · obtain ⟨q, r', h1, h2, rfl⟩ := x
      have hq : q = [] := by
        have := hp.length_le
        rw [List.length_append] at this
        exact List.length_eq_zero_iff.mp (by omega)
      subst hq
      exact hw.dirs [] r' h1 (fun e => (hok.1 r' h1).2 e.symm) List.nil_prefix
    · rw [hw.rest p (fun q r' h1 h2 h3 => x ⟨q, r', h1, h2, h3⟩)]
      exact hr0.dirs p hp
  have hway : ∀ p, p <+: e.tmp ++ elems r.fullName → p <+: e.tmp ∨ ∃ q, p = e.tmp ++ q ∧ q ≠ [] ∧ q <+: elems r.fullName := by
    intro p hp
    rcases List.prefix_or_prefix_of_prefix hp (List.prefix_append e.tmp _) with h | ⟨q, rfl⟩
    · exact Or.inl h
    · by_cases e0 : q = []
      · subst e0; exact Or.inl (by simp)
      · exact Or.inr ⟨q, rfl, e0, (List.prefix_append_right_inj _).mp hp⟩
  by_cases hcon : ∃ r' ∈ done, elems r'.fullName <+: elems r.fullName
  · -- a source is where a directory is needed
    obtain ⟨r', h1, h2⟩ := hcon
    obtain ⟨c, _, hleaf⟩ := hw.file r' h1
    have hp : e.tmp ++ elems r'.fullName <+: (e.tmp ++ elems r.fullName).dropLast :=
      prefix_dropLast ((List.prefix_append_right_inj _).mpr h2) (fun x => hnew r' h1 (List.append_cancel_left x))
    have hf : (mkdirAll h (e.tmp ++ elems r.fullName).dropLast).2 = false := ensure_fails (mem_beginnings.mpr hp) hleaf
    right
    constructor
    · cases hm : mkdirAll h (e.tmp ++ elems r.fullName).dropLast with
      | mk h1 b => rw [hm] at hf; simp only at hf; subst hf; rfl
    · intro hW
      exact hnew r' h1 (hW.2 r' (by simp [h1]) r (by simp) h2)
  -- what is at a place on the way
  have hplace : ∀ q, q <+: elems r.fullName → (h (e.tmp ++ q) = some .dir ∧ (q = [] ∨ ∃ r' ∈ done, q <+: elems r'.fullName)) ∨
      h (e.tmp ++ q) = none ∧ ∀ r' ∈ done, ¬ q <+: elems r'.fullName := by
    intro q hq
    by_cases x : ∃ r' ∈ done, q <+: elems r'.fullName
    · obtain ⟨r', h1, h2⟩ := x
      left
      refine ⟨hw.dirs q r' h1 ?_ h2, Or.inr ⟨r', h1, h2⟩⟩
      rintro rfl
      exact hcon ⟨r', h1, hq⟩
    · by_cases e0 : q = []
      · subst e0
        exact Or.inl ⟨hup _ (by simp), Or.inl rfl⟩
      · right
        refine ⟨?_, fun r' h1 h2 => x ⟨r', h1, h2⟩⟩
        rw [hw.rest]
        · exact hr0.empty q e0
        · intro q' r' h1 h2 h3
          have := List.append_cancel_left h3
          subst this
          exact x ⟨r', h1, h2⟩
  have hnoleaf : ∀ p ∈ beginnings (e.tmp ++ elems r.fullName).dropLast, ∀ c i, h p ≠ some (.leaf c i) := by
    intro p hp c i
    have hp' := (mem_beginnings.mp hp).trans (List.dropLast_prefix _)
    rcases hway p hp' with x | ⟨q, rfl, _, hq⟩
    · rw [hup p x]; simp
    · rcases hplace q hq with ⟨x, _⟩ | ⟨x, _⟩ <;> (rw [x]; simp)
  obtain ⟨m1, m2⟩ := ensure_ok hnoleaf
  cases hm : mkdirAll h (e.tmp ++ elems r.fullName).dropLast with
  | mk h1 b =>
  have hb : b = true := by
    have : (mkdirAll h (e.tmp ++ elems r.fullName).dropLast).2 = true := m1
    rw [hm] at this; exact this
  have h1q : ∀ q, h1 q = if q <+: (e.tmp ++ elems r.fullName).dropLast then some .dir else h q := by
    intro q
    have := m2 q
    have hx : (mkdirAll h (e.tmp ++ elems r.fullName).dropLast).1 q = _ := this
    rw [hm] at hx
    simp only [mem_beginnings] at hx
    exact hx
  subst hb
  have hself : h1 (e.tmp ++ elems r.fullName) = h (e.tmp ++ elems r.fullName) := by
    rw [h1q, if_neg (fun x => dropLast_ne hlne x rfl)]
  simp only
  rcases hplace _ (List.prefix_refl _) with ⟨x, hx⟩ | ⟨x, hx⟩
  · -- a directory is there
    right
    rw [hself, x]
    refine ⟨rfl, ?_⟩
    rintro ⟨w1, w2⟩
    rcases hx with hx | ⟨r', hr', hx⟩
    · exact (w1 r (by simp)).2 hx
    · exact hnew r' hr' (w2 r (by simp) r' (by simp [hr']) hx).symm
  · rw [hself, x]
    simp only
    cases hc : r.content with
    | none =>
      right
      exact ⟨rfl, fun w => (w.1 r (by simp)).1 hc⟩
    | some c =>
      left
      have hne' : elems r.fullName ≠ [] := by
        intro e0
        rw [e0] at x
        rw [hup _ (by simp)] at x
        cases x
      refine ⟨_, rfl, ⟨?_, ?_⟩, ?_, ?_, ?_⟩
      · intro r' hr'
        rcases List.mem_cons.mp hr' with rfl | hr'
        · exact ⟨by rw [hc]; simp, hne'⟩
        · exact hok.1 r' hr'
      · intro a ha b hb hab
        rcases List.mem_cons.mp ha with rfl | ha
        · rcases List.mem_cons.mp hb with rfl | hb
          · rfl
          · exact absurd hab (hx b hb)
        · rcases List.mem_cons.mp hb with e0 | hb
          · rw [e0] at hab; exact absurd ⟨a, ha, hab⟩ hcon
          · exact hok.2 a ha b hb hab
      · intro r' hr'
        rcases List.mem_cons.mp hr' with rfl | hr'
        · exact ⟨c, hc, Host.set_same ..⟩
        · obtain ⟨c', h2, h3⟩ := hw.file r' hr'
          refine ⟨c', h2, ?_⟩
          rw [Host.set_other _ _ (fun y => hnew r' hr' (List.append_cancel_left y)), h1q, if_neg, h3]
          intro y
          have y' := y.trans (List.dropLast_prefix _)
          exact hcon ⟨r', hr', (List.prefix_append_right_inj _).mp y'⟩
      · intro q r' hr' hq1 hq2
        have hqr : q ≠ elems r.fullName := by
          rintro rfl
          rcases List.mem_cons.mp hr' with rfl | hr'
          · exact hq1 rfl
          · exact hx r' hr' hq2
        rw [Host.set_other _ _ (fun y => hqr (List.append_cancel_left y)), h1q]
        rcases List.mem_cons.mp hr' with rfl | hr'
        · rw [if_pos (prefix_dropLast ((List.prefix_append_right_inj _).mpr hq2) (fun y => hqr (List.append_cancel_left y)))]
        · split
          · rfl
          · exact hw.dirs q r' hr' hq1 hq2
      · intro p hp
        rw [Host.set_other, h1q]
        · split
          · rename_i y
            have y' := y.trans (List.dropLast_prefix _)
            rcases hway p y' with z | ⟨q, rfl, _, hq⟩
            · rw [hr0.dirs p z]
            · exact absurd rfl (hp q r (by simp) hq)
          · exact hw.rest p (fun q r' h1 h2 => hp q r' (by simp [h1]) h2)
        · exact hp _ r (by simp) (List.prefix_refl _)

theorem writeFiles_spec {e : Machine} (ht : ∀ c ∈ e.tmp, Plain c) (hne : e.tmp ≠ []) {h0 : Host} (hr0 : Ready e.tmp h0) {srcs : List Ref} :
    ∀ {h : Host} {done : List Ref}, Written e h0 done h → Writable done → (∀ r ∈ srcs, Named r) →
      ((srcs.reverse ++ done).map (fun r => elems r.fullName)).Nodup →
      (∃ h', writeFiles e h srcs = (h', true) ∧ Writable (srcs.reverse ++ done) ∧ Written e h0 (srcs.reverse ++ done) h') ∨
      ((writeFiles e h srcs).2 = false ∧ ¬ Writable (srcs.reverse ++ done)) := by
  induction srcs with
  | nil => intro h done hw hok _ _; exact Or.inl ⟨h, rfl, hok, hw⟩
  | cons r srcs ih =>
    intro h done hw hok hn hnd
    have e1 : (r :: srcs).reverse ++ done = srcs.reverse ++ (r :: done) := by simp
    rw [e1] at hnd ⊢
    have hnew : ∀ r' ∈ done, elems r'.fullName ≠ elems r.fullName := by
      intro r' hr' x
      rw [List.map_append, List.map_cons] at hnd
      have := (List.nodup_append.mp hnd).2.1
      rw [List.nodup_cons] at this
      exact this.1 (List.mem_map.mpr ⟨r', hr', x⟩)
    rcases write_step ht hne hr0 hw hok (hn r (by simp)) hnew with ⟨h', w1, w2, w3⟩ | ⟨w1, w2⟩
    · unfold writeFiles
      rw [w1]
      exact ih w3 w2 (fun x hx => hn x (by simp [hx])) hnd
    · right
      unfold writeFiles
      constructor
      · cases hx : writeFile e h r with
        | mk h1 b => rw [hx] at w1; simp only at w1; subst w1; rfl
      · intro hW
        refine w2 ⟨fun x hx => hW.1 x (List.mem_append_right _ hx), fun x hx y hy => hW.2 x (List.mem_append_right _ hx) y (List.mem_append_right _ hy)⟩

theorem writable_mem {l l' : List Ref} (h : ∀ r, r ∈ l ↔ r ∈ l') (hw : Writable l) : Writable l' :=
  ⟨fun r hr => hw.1 r ((h r).mpr hr), fun r hr r' hr' => hw.2 r ((h r).mpr hr) r' ((h r').mpr hr')⟩

theorem written_mem {e : Machine} {h0 h : Host} {l l' : List Ref} (hm : ∀ r, r ∈ l ↔ r ∈ l') (hw : Written e h0 l h) : Written e h0 l' h :=
  ⟨fun r hr => hw.file r ((hm r).mpr hr), fun q r hr => hw.dirs q r ((hm r).mpr hr), fun p hp => hw.rest p (fun q r hr => hp q r ((hm r).mp hr))⟩

/-- there is one result only -/
theorem written_unique {e : Machine} {h0 h h' : Host} {l : List Ref} (hw : Written e h0 l h) (hw' : Written e h0 l h') : h = h' := by
  funext p
  by_cases x : ∃ q r, r ∈ l ∧ q <+: elems r.fullName ∧ p = e.tmp ++ q
  · obtain ⟨q, r, h1, h2, rfl⟩ := x
    by_cases y : q = elems r.fullName
    · subst y
      obtain ⟨c, hc, hx⟩ := hw.file r h1
      obtain ⟨c', hc', hx'⟩ := hw'.file r h1
      rw [hc] at hc'
      cases hc'
      rw [hx, hx']
    · rw [hw.dirs q r h1 y h2, hw'.dirs q r h1 y h2]
  · rw [hw.rest p (fun q r h1 h2 h3 => x ⟨q, r, h1, h2, h3⟩), hw'.rest p (fun q r h1 h2 h3 => x ⟨q, r, h1, h2, h3⟩)]

theorem named_nodup {srcs : List Ref} (hn : ∀ r ∈ srcs, Named r) (h : (srcs.map (·.fullName)).Nodup) :
    (srcs.map (fun r => elems r.fullName)).Nodup := by
  rw [List.Nodup, List.pairwise_map] at h ⊢
  refine h.imp_of_mem ?_
  intro a b ha hb hab x
  apply hab
  rw [(hn a ha).2, (hn b hb).2, x]

/-- writing the sources to the new directory -/
theorem writeFiles_all {e : Machine} (ht : ∀ c ∈ e.tmp, Plain c) (hne : e.tmp ≠ []) {h0 : Host} (hr0 : Ready e.tmp h0) {srcs : List Ref}
    (hn : ∀ r ∈ srcs, Named r) (hd : (srcs.map (·.fullName)).Nodup) :
    (∃ h', writeFiles e h0 srcs = (h', true) ∧ Writable srcs ∧ Written e h0 srcs h') ∨
    ((writeFiles e h0 srcs).2 = false ∧ ¬ Writable srcs) := by
  have hm : ∀ r, r ∈ srcs.reverse ++ [] ↔ r ∈ srcs := by simp
  have := writeFiles_spec ht hne hr0 (srcs := srcs) (h := h0) (done := [])
    ⟨fun r h => (nomatch h), fun q r h => (nomatch h), fun p _ => rfl⟩ ⟨fun r h => (nomatch h), fun r h => (nomatch h)⟩ hn
    (by
      rw [List.append_nil, List.map_reverse]
      exact (List.reverse_perm _).nodup_iff.mpr (named_nodup hn hd))
  rcases this with ⟨h', h1, h2, h3⟩ | ⟨h1, h2⟩
  · exact Or.inl ⟨h', h1, writable_mem hm h2, written_mem hm h3⟩
  · exact Or.inr ⟨h1, fun w => h2 (writable_mem (fun r => (hm r).symm) w)⟩

/-! ### nothing else is touched -/

theorem writeFile_only {e : Machine} (ht : ∀ c ∈ e.tmp, Plain c) (hne : e.tmp ≠ []) {h : Host} (hd : ∀ p, p <+: e.tmp → h p = some .dir) {r : Ref}
    (hr : Named r) (q : List Str) (hq : ¬ (e.tmp <+: q ∧ q ≠ e.tmp)) : (writeFile e h r).1 q = h q := by
  rw [writeFile_eq ht hne h hr]
  have hone : ∀ q, ¬ (e.tmp <+: q ∧ q ≠ e.tmp) → (mkdirAll h (e.tmp ++ elems r.fullName).dropLast).1 q = h q := by
    intro q hq
    rcases ensure_only h true (beginnings (e.tmp ++ elems r.fullName).dropLast) q with x | ⟨x, y, _⟩
    · exact x
    · exfalso
      have hp := (mem_beginnings.mp x).trans (List.dropLast_prefix _)
      rcases List.prefix_or_prefix_of_prefix hp (List.prefix_append e.tmp _) with z | z
      · rw [hd q z] at y; cases y
      · by_cases e0 : q = e.tmp
        · rw [hd q (e0 ▸ List.prefix_refl _)] at y; cases y
        · exact hq ⟨z, e0⟩
  have h1 := hone q hq
  cases hm : mkdirAll h (e.tmp ++ elems r.fullName).dropLast with
  | mk h' b =>
  rw [hm] at h1
  have htmp : h' e.tmp = some .dir := by
    have := hone e.tmp (fun x => x.2 rfl)
    rw [hm] at this
    exact this.trans (hd _ (List.prefix_refl _))
  cases b with
  | false => exact h1
  | true =>
    simp only
    have hother : h' (e.tmp ++ elems r.fullName) ≠ some .dir → q ≠ e.tmp ++ elems r.fullName := by
      rintro hx rfl
      by_cases e0 : elems r.fullName = []
      · rw [e0, List.append_nil] at hx; exact hx htmp
      · exact hq ⟨List.prefix_append .., fun z => e0 (by
          have := congrArg List.length z
          rw [List.length_append] at this
          exact List.length_eq_zero_iff.mp (by omega))⟩
    split
    · exact h1
    · rename_i hx
      have hx' : h' (e.tmp ++ elems r.fullName) ≠ some .dir := hx
      split
      · exact (Host.set_other _ _ (hother hx')).trans h1
      · exact (Host.set_other _ _ (hother hx')).trans h1

theorem writeFiles_only {e : Machine} (ht : ∀ c ∈ e.tmp, Plain c) (hne : e.tmp ≠ []) {srcs : List Ref} (hn : ∀ r ∈ srcs, Named r) :
    ∀ {h : Host}, (∀ p, p <+: e.tmp → h p = some .dir) → ∀ q, ¬ (e.tmp <+: q ∧ q ≠ e.tmp) → (writeFiles e h srcs).1 q = h q := by
  induction srcs with
  | nil => intro h _ q _; rfl
  | cons r srcs ih =>
    intro h hd q hq
    have hone := writeFile_only ht hne hd (hn r (by simp))
    unfold writeFiles
    cases hx : writeFile e h r with
    | mk h1 b =>
      rw [hx] at hone
      cases b with
      | false => exact hone q hq
      | true =>
        refine (ih (fun x hx => hn x (by simp [hx])) ?_ q hq).trans (hone q hq)
        intro p hp
        refine (hone p ?_).trans (hd p hp)
        rintro ⟨a, b⟩
        exact b (List.IsPrefix.eq_of_length_le hp a.length_le)

end Bdist
