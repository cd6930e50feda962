import Verif.Squash.PropsTree
/-! C131: what the entries of a squashed layer, and the files of a loaded file system, are made of. -/
namespace Squash
open Go

/-! ### the invariant -/

/-- header and content at a node are those of an entry that has this node's last name element, or of an added marker -/
def Sourced (oc : Bool) (es : List Entry) (S : FS) : Prop :=
  ∀ q h b, S.get? q = some ⟨some h, b⟩ →
    (∃ e ∈ es, h = { e.header with name := clean e.header.name } ∧ b = (if oc then [] else e.body) ∧
      (q = [] ∧ clean e.header.name = ['.'] ∨ ∃ p c, q = p ++ [c] ∧ Plain c ∧ pathBase (clean e.header.name) = c)) ∨
    (∃ d, q = d ++ [opqName]) ∧ h = opqHeader ∧ b = []

theorem Sourced.mono {oc : Bool} {es es' : List Entry} {S : FS} (h : Sourced oc es S) (hs : ∀ e ∈ es, e ∈ es') : Sourced oc es' S := by
  intro q hd b hq
  rcases h q hd b hq with ⟨e, h1, h2⟩ | h1
  · exact .inl ⟨e, hs e h1, h2⟩
  · exact .inr h1

theorem Sourced.less {oc : Bool} {es : List Entry} {S S' : FS} (h : Sourced oc es S)
    (hs : ∀ q, S'.get? q = S.get? q ∨ S'.get? q = none) : Sourced oc es S' := by
  intro q hd b hq
  rcases hs q with e | e
  · rw [e] at hq; exact h q hd b hq
  · rw [e] at hq; cases hq

theorem Sourced.putNone {oc : Bool} {es : List Entry} {S : FS} (h : Sourced oc es S) (p : Path) : Sourced oc es (S.put p ⟨none, []⟩) := by
  intro q hd b hq
  rw [get?_put] at hq
  split at hq
  · cases hq
  · exact h q hd b hq

/-- a lookup keeps what its two ways of changing the file system keep -/
theorem get_keep {b : Bool} {Q : FS → Prop}
    (hclear : ∀ S f, Inv b S → S.has f → S.nonDir f = true → Q S →
      Q (setFile ((S.put f ⟨none, []⟩).put (f ++ [opqName]) ⟨none, []⟩) (f ++ [opqName]) opqHeader []))
    (hchild : ∀ S p, Q S → Q (S.put p ⟨none, []⟩)) (n : Nat) :
    ∀ (S : FS) (f : Path) (c : Str) (create follow : Bool) (S' : FS) (r : Path),
      (Inv b S ∧ S.has f) ∧ Q S → ElemOK b c → get n S f c create follow = some (.ok (S', r)) → (Inv b S' ∧ S'.has r) ∧ Q S' := by
  have hkeep : ∀ n S f c create follow S' r, Inv b S ∧ S.has f → ElemOK b c → get n S f c create follow = some (.ok (S', r)) →
      Inv b S' ∧ S'.has r := by
    intro n S f c create follow S' r hs hc h
    have := (get_pres n S S f c create follow S' r ⟨hs.1, hs.2, fun _ h => h, fun _ => rfl⟩ hc h).1
    exact ⟨this.inv, this.has⟩
  induction n with
  | zero => intro S f c create follow S' r _ _ h; simp [get] at h
  | succ n ih =>
    intro S f c create follow S' r hs hc h
    refine ⟨hkeep _ _ _ _ _ _ _ _ hs.1 hc h, ?_⟩
    let P : FS → Path → Prop := fun S f => (Inv b S ∧ S.has f) ∧ Q S
    have hup : ∀ S f, P S f → P S f.dropLast := fun S f h => ⟨⟨h.1.1, h.1.1.dropLast h.1.2⟩, h.2⟩
    have hfs : ∀ (fl : Bool) S d l S' r, P S d → (b = true → clean l ≠ ['/']) →
        fsGetWith (fun S d c fl => get n S d c create fl) S d l fl = some (.ok (S', r)) → P S' r := by
      intro fl S d l S' r hp hl h
      exact fsGetWith_pres (P := P) (fun S d c fl S' r h1 h2 h3 => ih S d c create fl S' r h1 h2 h3)
        (fun _ _ h => ⟨⟨h.1.1, h.1.1.root⟩, h.2⟩) hl hp h
    rw [get] at h
    obtain ⟨⟨S1, r1⟩, h1, h2⟩ := bind_ok.mp h
    have key : P S1 r1 := by
      split at h1
      · simp only [Option.some.injEq, Except.ok.injEq, Prod.mk.injEq] at h1
        rw [← h1.1, ← h1.2]; exact hup _ _ hs
      · split at h1
        · simp only [Option.some.injEq, Except.ok.injEq, Prod.mk.injEq] at h1
          rw [← h1.1, ← h1.2]; exact hs
        · rename_i hdd hd
          obtain ⟨⟨S2, f2⟩, h3, h4⟩ := bind_ok.mp h1
          obtain ⟨S3, h5, h6⟩ := bind_ok.mp h4
          have hs2 : P S2 f2 := by
            unfold enter at h3
            cases e : S.link f with
            | none =>
              rw [e] at h3
              simp only [Option.some.injEq, Except.ok.injEq, Prod.mk.injEq] at h3
              rw [← h3.1, ← h3.2]; exact hs
            | some l =>
              rw [e] at h3
              exact hfs true _ _ _ _ _ (hup _ _ hs) (fun hb => hs.1.1.links hb f l e) h3
          have hst : Step b create S2 S2 f2 := ⟨hs2.1.1, hs2.1.2, fun _ h => h, fun _ => rfl⟩
          obtain ⟨hs3, hn3⟩ := makeDir_pres hst h5
          have hq3 : Q S3 := by
            unfold makeDir at h5
            cases hn : S2.nonDir f2 with
            | false =>
              simp only [hn, Bool.false_eq_true, if_false, Option.some.injEq, Except.ok.injEq] at h5
              rw [← h5]; exact hs2.2
            | true =>
              simp only [hn, if_true] at h5
              cases create with
              | false => simp at h5
              | true =>
                simp only [Bool.not_true, Bool.false_eq_true, if_false] at h5
                have e1 : (S2.put f2 ⟨none, []⟩).nonDir f2 = false := by
                  unfold FS.nonDir; rw [get?_put, if_pos rfl]; rfl
                have e2 : ∀ c, (S2.put f2 ⟨none, []⟩).get? (f2 ++ [c]) = none := by
                  intro c; rw [get?_put, if_neg (by simp)]; exact hs2.1.1.leaf f2 hn c
                rcases get_opq_cases e1 e2 n with e | e
                · rw [e] at h5; simp [Res.bind] at h5
                · rw [e] at h5
                  simp only [bind_some_ok, Option.some.injEq, Except.ok.injEq] at h5
                  rw [← h5]; exact hclear _ _ hs2.1.1 hs2.1.2 hn hs2.2
          obtain ⟨hs4, e4⟩ := child_pres hs3 hn3 ⟨hc.1, hd, hdd⟩ hc.2 h6
          refine ⟨⟨hs4.inv, hs4.has⟩, ?_⟩
          unfold child at h6
          split at h6
          · simp only [Option.some.injEq, Except.ok.injEq, Prod.mk.injEq] at h6
            rw [← h6.1]; exact hq3
          · split at h6
            · simp only [Option.some.injEq, Except.ok.injEq, Prod.mk.injEq] at h6
              rw [← h6.1]; exact hchild _ _ hq3
            · cases h6
    cases follow with
    | true =>
      simp only [if_true] at h2
      exact (resolve_pres (P := P) (fun S ret l S' t h1 h2 h3 =>
        hfs false _ _ _ _ _ (hup _ _ h1) (fun hb => h1.1.1.links hb ret l h2) h3) _ _ _ _ _ _ key h2).1.2
    | false =>
      simp only [Bool.false_eq_true, if_false, Option.some.injEq, Except.ok.injEq, Prod.mk.injEq] at h2
      rw [← h2.1]; exact key.2

theorem Sourced.clear {oc : Bool} {es : List Entry} {S : FS} {f : Path} (hi : Inv false S) (hf : S.has f) (hn : S.nonDir f = true)
    (h : Sourced oc es S) :
    Sourced oc es (setFile ((S.put f ⟨none, []⟩).put (f ++ [opqName]) ⟨none, []⟩) (f ++ [opqName]) opqHeader []) := by
  intro q hd b hq
  rw [get?_clear hi hf hn] at hq
  split at hq
  · rename_i e
    cases hq
    exact .inr ⟨⟨f, e⟩, rfl, rfl⟩
  · split at hq
    · cases hq
    · exact h q hd b hq

theorem Sourced.opq {oc : Bool} {es : List Entry} {S : FS} {f : Path} (hk : ∀ c ∈ f, GoodKey c)
    (hno : ∀ q, f <+: q → q ≠ f → S.get? q = none) (h : Sourced oc es S) :
    Sourced oc es (setFile (S.put (f ++ [opqName]) ⟨none, []⟩) (f ++ [opqName]) opqHeader []) := by
  intro q hd b hq
  rw [get?_opq hk hno] at hq
  split at hq
  · rename_i e
    cases hq
    exact .inr ⟨⟨f, e⟩, rfl, rfl⟩
  · exact h q hd b hq

theorem Sourced.addEntry {oc : Bool} {es : List Entry} {n : Nat} {S S' : FS} {e0 : Entry} (hi : Inv false S) (h : Sourced oc es S)
    (he : e0 ∈ es) (ho : outside (clean e0.header.name) = false)
    (ha : addEntry n S ⟨{ e0.header with name := clean e0.header.name }, if oc then [] else e0.body⟩ = some (.ok S')) :
    Sourced oc es S' := by
  unfold Squash.addEntry at ha
  obtain ⟨⟨S1, r⟩, h1, h2⟩ := bind_ok.mp ha
  simp only at h1 h2
  obtain ⟨hst, hr⟩ := fsGet_entry hi ho h1
  have hs1 : Sourced oc es S1 :=
    (fsGetWith_pres (b := false) (P := fun S f => (Inv false S ∧ S.has f) ∧ Sourced oc es S)
      (fun S d c fl S' r h1 h2 h3 => get_keep (fun S f hi hf hn hq => hq.clear hi hf hn) (fun S p hq => hq.putNone p) n S d c true fl S' r h1 h2 h3)
      (fun _ _ h => ⟨⟨h.1.1, h.1.1.root⟩, h.2⟩) (by simp) ⟨⟨hi, hi.root⟩, h⟩ h1).2
  have hput : Sourced oc es (S1.put r ⟨some { e0.header with name := clean e0.header.name }, if oc then [] else e0.body⟩) := by
    intro q hd b hq
    rw [get?_put] at hq
    split at hq
    · rename_i e
      cases hq
      refine .inl ⟨e0, he, rfl, rfl, ?_⟩
      rw [e]; exact hr
    · exact hs1 q hd b hq
  have hu : ∀ {S : FS} (f : Path), Sourced oc es S → Sourced oc es (unmark S f) := fun f h => h.less fun q => get?_unmark_le
  unfold set at h2
  split at h2
  · simp only [Option.some.injEq, Except.ok.injEq] at h2
    rw [← h2]
    unfold setFile
    refine hu _ (hput.less fun q => ?_)
    rw [get?_delBelow]; split <;> simp
  · rename_i ht
    split at h2
    · rename_i hn
      have e1 : (S1.put r ⟨some { e0.header with name := clean e0.header.name }, if oc then [] else e0.body⟩).nonDir r = false := by
        unfold FS.nonDir; rw [get?_put, if_pos rfl]; simpa [Node.nonDir] using ht
      have e2 : ∀ q, r <+: q → q ≠ r → (S1.put r ⟨some { e0.header with name := clean e0.header.name }, if oc then [] else e0.body⟩).get? q = none := by
        intro q h3 h4; rw [get?_put, if_neg h4]; exact hst.inv.noDesc (hst.inv.leaf r hn) h3 h4
      rcases get_opq_cases e1 (fun c => e2 (r ++ [c]) (List.prefix_append _ _) (by simp)) n with e | e
      · rw [e] at h2; simp [Res.bind] at h2
      · rw [e] at h2
        simp only [bind_some_ok, Option.some.injEq, Except.ok.injEq] at h2
        rw [← h2]
        exact hu _ (hput.opq (fun c hc => (hst.inv.keys r hst.has c hc).1) e2)
    · simp only [Option.some.injEq, Except.ok.injEq] at h2
      rw [← h2]; exact hu _ hput

/-- the entry is one of the layer's, cleaned -/
def Parsed (oc : Bool) (l : List Entry) (e : Entry) : Prop :=
  ∃ e0 ∈ l, outside (clean e0.header.name) = false ∧ e = ⟨{ e0.header with name := clean e0.header.name }, if oc then [] else e0.body⟩

theorem parsed_of {oc : Bool} : ∀ (l ws fs : List Entry), parseLayer oc l = .ok (ws, fs) →
    (∀ e ∈ ws, Parsed oc l e) ∧ (∀ e ∈ fs, Parsed oc l e) := by
  intro l
  induction l with
  | nil => intro ws fs h; simp only [parseLayer, Except.ok.injEq, Prod.mk.injEq] at h; rw [← h.1, ← h.2]; simp
  | cons e l ih =>
    intro ws fs h
    rw [parseLayer] at h
    simp only at h
    split at h
    · simp at h
    · rename_i ho
      cases hp : parseLayer oc l with
      | error x => rw [hp] at h; simp at h
      | ok y =>
        obtain ⟨ws', fs'⟩ := y
        rw [hp] at h
        obtain ⟨i1, i2⟩ := ih ws' fs' hp
        have hok : Parsed oc (e :: l) ⟨{ e.header with name := clean e.header.name }, if oc then [] else e.body⟩ :=
          ⟨e, by simp, by simpa using ho, rfl⟩
        have up : ∀ x, Parsed oc l x → Parsed oc (e :: l) x := fun x ⟨e0, h1, h2⟩ => ⟨e0, by simp [h1], h2⟩
        simp only at h
        split at h
        · simp only [Except.ok.injEq, Prod.mk.injEq] at h
          rw [← h.1, ← h.2]
          refine ⟨fun x hx => ?_, fun x hx => up x (i2 x hx)⟩
          rcases List.mem_cons.mp hx with rfl | hx
          · exact hok
          · exact up x (i1 x hx)
        · simp only [Except.ok.injEq, Prod.mk.injEq] at h
          rw [← h.1, ← h.2]
          refine ⟨fun x hx => up x (i1 x hx), fun x hx => ?_⟩
          rcases List.mem_cons.mp hx with rfl | hx
          · exact hok
          · exact up x (i2 x hx)

theorem addEntries_sourced {oc : Bool} {es : List Entry} {n : Nat} : ∀ (xs : List Entry) (S S' : FS), Inv false S → Sourced oc es S →
    (∀ x ∈ xs, Parsed oc es x) → addEntries n S xs = some (.ok S') → Inv false S' ∧ Sourced oc es S' := by
  intro xs
  induction xs with
  | nil =>
    intro S S' hi hs _ h
    simp only [addEntries, Option.some.injEq, Except.ok.injEq] at h
    rw [← h]; exact ⟨hi, hs⟩
  | cons x xs ih =>
    intro S S' hi hs hx h
    rw [addEntries] at h
    obtain ⟨S1, h1, h2⟩ := bind_ok.mp h
    obtain ⟨e0, h3, h4, h5⟩ := hx x (by simp)
    have hi1 : Inv false S1 := addEntry_pres hi ⟨⟨e0.header.name, by rw [h5], h4⟩, by simp⟩ h1
    rw [h5] at h1
    exact ih _ _ hi1 (hs.addEntry hi h3 h4 h1) (fun y hy => hx y (by simp [hy])) h2

theorem loadFrom_sourced {oc : Bool} {n : Nat} {es : List Entry} : ∀ (ls : List (List Entry)) (S S' : FS), Inv false S → Sourced oc es S →
    (∀ l ∈ ls, ∀ e ∈ l, e ∈ es) → loadFrom n oc S ls = some (.ok S') → Inv false S' ∧ Sourced oc es S' := by
  intro ls
  induction ls with
  | nil =>
    intro S S' hi hs _ h
    simp only [loadFrom, Option.some.injEq, Except.ok.injEq] at h
    rw [← h]; exact ⟨hi, hs⟩
  | cons l ls ih =>
    intro S S' hi hs hl h
    rw [loadFrom] at h
    cases hp : parseLayer oc l with
    | error x => rw [hp] at h; simp at h
    | ok y =>
      obtain ⟨ws, fs⟩ := y
      rw [hp] at h
      simp only at h
      have up : ∀ x, Parsed oc l x → Parsed oc es x := fun x ⟨e0, h1, h2⟩ => ⟨e0, hl l (by simp) e0 h1, h2⟩
      obtain ⟨p1, p2⟩ := parsed_of l ws fs hp
      obtain ⟨S1, h1, h2⟩ := bind_ok.mp h
      obtain ⟨S2, h3, h4⟩ := bind_ok.mp h2
      obtain ⟨i1, s1⟩ := addEntries_sourced ws S S1 hi hs (fun x hx => up x (p1 x hx)) h1
      obtain ⟨i2, s2⟩ := addEntries_sourced fs S1 S2 i1 s1 (fun x hx => up x (p2 x hx)) h3
      exact ih _ _ i2 s2 (fun x hx => hl x (by simp [hx])) h4

theorem load_sourced {oc : Bool} {n : Nat} {layers : List (List Entry)} {S : FS} (h : loadLayers n layers oc = some (.ok S)) :
    Inv false S ∧ Sourced oc layers.flatten S := by
  refine loadFrom_sourced layers _ _ (inv_empty false) ?_ (fun l hl e he => List.mem_flatten.mpr ⟨l, hl, he⟩) h
  intro q hd b hq
  unfold emptyFS FS.get? at hq
  by_cases e : q = []
  · subst e; cases hq
  · rw [List.find?_cons_of_neg (by simpa using e)] at hq; cases hq

theorem pathBase_slash {s : Str} (h : s ≠ []) : pathBase (s ++ "/".toList) = pathBase s := by
  unfold pathBase
  rw [if_neg (by simp), if_neg h]
  have : (s ++ "/".toList).reverse.dropWhile (· = '/') = s.reverse.dropWhile (· = '/') := by
    rw [List.reverse_append]
    exact List.dropWhile_cons_of_pos (p := fun c : Char => decide (c = '/')) (a := '/') (by decide)
  rw [this]

/-! ### the property -/

/-- all of the header but its name -/
def Spec.sameMeta (a b : Header) : Prop :=
  a.typeflag = b.typeflag ∧ a.linkname = b.linkname ∧ a.size = b.size ∧ a.mode = b.mode ∧ a.other = b.other

/-- an empty regular file that anyone may read and its owner write -/
def Spec.emptyFile (h : Header) (b : Bytes) : Prop :=
  h.typeflag = '0' ∧ h.linkname = [] ∧ h.size = 0 ∧ h.mode = 0o644 ∧ h.other = [] ∧ b = []

open Spec

/-- C131: each entry of a squashed layer has the metadata, content and last name element of an entry of the given layers,
or it is an empty file named ".wh..wh..opq" -/
theorem C131_squash (n : Nat) (srt : (Str → Str → Bool) → List Str → List Str) (order : Path → List Str → List Str)
    (layers : List (List Entry)) (out : List Entry) (h : squash n srt order layers = some (.ok out)) :
    ∀ e ∈ out,
      (∃ l ∈ layers, ∃ e0 ∈ l, sameMeta e.header e0.header ∧ e.body = e0.body ∧
        pathBase e.header.name = pathBase (clean e0.header.name)) ∨
      (pathBase e.header.name = ".wh..wh..opq".toList ∧ emptyFile e.header e.body) := by
  unfold squash at h
  obtain ⟨S, h1, h2⟩ := bind_ok.mp h
  simp only [Option.some.injEq, Except.ok.injEq] at h2
  obtain ⟨hi, hs⟩ := load_sourced h1
  intro e he
  rw [← h2] at he
  obtain ⟨q, hq⟩ := mem_writeTo _ _ he
  rw [List.nil_append] at hq
  obtain ⟨hd, b, hg, rfl⟩ := mem_nodeEntry.mp hq
  have hk : ∀ c ∈ q, GoodKey c := fun c hc => (hi.keys q (has_of hg) c hc).1
  have hne : nodeName q ≠ [] := by
    rw [nodeName_eq hk]
    unfold render
    simp only [Bool.false_eq_true, if_false]
    intro e
    cases hf : q.filter (· ≠ []) with
    | nil => rw [hf] at e; simp at e
    | cons c cs =>
      have : c ∈ q.filter (· ≠ []) := by rw [hf]; simp
      have hc := (List.mem_filter.mp this).2
      rw [hf, if_neg (by simp)] at e
      cases cs with
      | nil => simp only [join] at e; simp [e] at hc
      | cons d ds => simp [join] at e
  have hb : pathBase (if hd.typeflag = typeDir then nodeName q ++ "/".toList else nodeName q) = pathBase (nodeName q) := by
    split
    · exact pathBase_slash hne
    · rfl
  rcases hs q hd b hg with ⟨e0, a1, a2, a3, a4⟩ | ⟨⟨d, a1⟩, a2, a3⟩
  · obtain ⟨l, b1, b2⟩ := List.mem_flatten.mp a1
    refine .inl ⟨l, b1, e0, b2, ?_, by simpa using a3, ?_⟩
    · subst a2; exact ⟨rfl, rfl, rfl, rfl, rfl⟩
    · simp only; rw [hb]
      rcases a4 with ⟨c1, c2⟩ | ⟨p, c, c1, c2, c3⟩
      · rw [c1, c2]; rfl
      · rw [c3, c1]; exact base_nodeName (fun x hx => hk x (by rw [c1]; simp [hx])) c2
  · refine .inr ⟨?_, ?_⟩
    · simp only; rw [hb, a1]
      exact base_nodeName (fun x hx => hk x (by rw [a1]; simp [hx])) plain_opq
    · subst a2; subst a3; exact ⟨rfl, rfl, rfl, rfl, rfl, rfl⟩

/-- C131: whatever a loaded file system holds under any path has likewise the metadata, name and, unless contents were left
out, content of an entry; or it is an added marker, or (without a header) a directory no layer mentions -/
theorem C131_load (n : Nat) (oc : Bool) (layers : List (List Entry)) (S : FS) (h : loadLayers n layers oc = some (.ok S))
    (q : Path) (hd : Header) (b : Bytes) (hn : S.get? q = some ⟨some hd, b⟩) :
    (∃ l ∈ layers, ∃ e0 ∈ l, sameMeta hd e0.header ∧ hd.name = clean e0.header.name ∧ b = (if oc then [] else e0.body)) ∨
      (q.getLast? = some ".wh..wh..opq".toList ∧ emptyFile hd b) := by
  rcases (load_sourced h).2 q hd b hn with ⟨e0, a1, a2, a3, _⟩ | ⟨⟨d, a1⟩, a2, a3⟩
  · obtain ⟨l, b1, b2⟩ := List.mem_flatten.mp a1
    refine .inl ⟨l, b1, e0, b2, ?_, by rw [a2], a3⟩
    subst a2; exact ⟨rfl, rfl, rfl, rfl, rfl⟩
  · refine .inr ⟨by rw [a1, List.getLast?_concat]; rfl, ?_⟩
    subst a2; subst a3; exact ⟨rfl, rfl, rfl, rfl, rfl, rfl⟩

/-- Not vacuous: a file through a symlink, a file replaced by a directory (twice: with and without an entry for it) and a
whiteout; the two markers are added -/
def exSource : List (List Entry) :=
  [[exDir "d/", exLink "s" "d", exFile "f" [1], exFile "g" [2]], [exFile "s/x" [3], exDir "f/", exFile "g/y" [4], exFile ".wh.z" []]]

example : (squash 9 insertionSort (fun _ l => l) exSource).map (fun r => r.toOption.map (·.map (fun e => (e.header.name, e.body)))) =
    some (some [(".wh.z".toList, []), ("d/".toList, []), ("d/x".toList, [3]), ("f/".toList, []), ("f/.wh..wh..opq".toList, []),
      ("g/.wh..wh..opq".toList, []), ("g/y".toList, [4]), ("s".toList, [])]) := by decide +kernel

/-- and loaded without contents: the file written through the symlink keeps its name and loses its content -/
example : (loadLayers 9 exSource true).map (fun r => r.toOption.map (fun S => (S.get? ["d".toList, "x".toList], S.get? ["g".toList]))) =
    some (some (some ⟨some (exFile "s/x" [3]).header, []⟩, some ⟨none, []⟩)) := by decide +kernel

end Squash
