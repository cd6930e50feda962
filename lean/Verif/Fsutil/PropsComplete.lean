import Verif.Fsutil.PropsDir
/-! C147: when layers of directories and of file references can be made. -/
namespace Fsutil
open Go

/-! ### specification -/

/-- `w`, coming after the files `before` and being called `name w.rel` in the layer, can be put in the layer: there is a header for it;
if it has been seen before, under another name, a hard link to the first such name can be written; if not, its target must be readable if
it is a symlink, and its content, of the size in the header, if it is a regular file -/
def Spec.Packable (accepts : Hdr → Bool) (name : Str → Str) (clamp : Int) (before : List WalkItem) (w : WalkItem) : Prop :=
  w.err = false ∧ ∃ h, w.info = some h ∧
    match before.find? (fun f => f.file = w.file) with
    | some f => accepts (Spec.clamped clamp { h with name := name w.rel, typeflag := '1', linkname := name f.rel }) = true
    | none =>
      (h.typeflag = '2' → ∃ t, w.target = some t ∧ accepts (Spec.clamped clamp { h with name := name w.rel, linkname := t }) = true) ∧
      (h.typeflag ≠ '2' → accepts (Spec.clamped clamp { h with name := name w.rel }) = true) ∧
      (h.typeflag = '0' → ∃ c, w.content = some c ∧ (c.length : Int) = h.size)

/-- the walk reports no error, and each file of the tree can be put in the layer -/
def Spec.AllPackable (accepts : Hdr → Bool) (name : Str → Str) (clamp : Int) (ws : List WalkItem) : Prop :=
  (∀ w ∈ ws, w.err = false) ∧
  ∀ i (h : i < (Spec.tree ws).length), Spec.Packable accepts name clamp ((Spec.tree ws).take i) (Spec.tree ws)[i]

/-- the header of a directory leading to the prefix: mode 0755 unless given, the owner of the prefix, modified at `clamp` -/
def Spec.prefixDir (p : Prefix) (zero clamp : Int) (dir : Str) : Hdr where
  name := dir
  typeflag := '5'
  linkname := []
  size := 0
  mode := if p.mode = 0 then 0o755 else p.mode
  uid := p.owner.uid
  gid := p.owner.gid
  uname := p.owner.uname
  gname := p.owner.gname
  modTime := clamp
  accessTime := zero
  changeTime := zero
  pax := []
  other := []

/-- the file reference can be put in a layer -/
def Spec.RefPackable (accepts : Hdr → Bool) (clamp : Int) (f : FileRef) : Prop :=
  ∃ h, f.info = some h ∧ accepts (Spec.clamped clamp { h with name := f.name }) = true ∧
    (h.typeflag = '0' → ∃ c, f.content = some c ∧ (c.length : Int) = h.size)

/-! ### lemmas -/

theorem find_map_log (name : Str → Str) (fs : List WalkItem) (n : Nat) :
    (fs.map (fun w => (name w.rel, w.file))).find? (fun e => e.2 = n) =
      (fs.find? (fun f => f.file = n)).map (fun w => (name w.rel, w.file)) := by
  rw [List.find?_map]; rfl

theorem bodyOf_exists (h : Hdr) (x : Option Bytes) :
    (∃ b, bodyOf h x = .ok b) ↔ (h.typeflag = '0' → ∃ c, x = some c ∧ (c.length : Int) = h.size) := by
  unfold bodyOf
  by_cases ht : h.typeflag = typeReg
  · rw [if_pos ht]
    have ht' : h.typeflag = '0' := ht
    cases x with
    | none => simp [ht']
    | some c =>
      by_cases hc : (c.length : Int) = h.size
      · simp [hc]
      · simp [hc, ht']
  · rw [if_neg ht]
    have ht' : h.typeflag ≠ '0' := ht
    simp [ht']

theorem walkEntry_exists {accepts : Hdr → Bool} {pre : Option Prefix} {chown : Option Ownership} {clamp : Int} {before : List WalkItem}
    {w : WalkItem} (hd : w.rel ≠ ['.']) :
    (∃ e, walkEntry accepts pre chown clamp (before.map (fun w => (entryName pre w.rel, w.file))) w = .ok e) ↔
      Spec.Packable accepts (entryName pre) clamp before w := by
  unfold Spec.Packable
  have hbody : ∀ h' : Hdr, (∃ e, (if accepts (clampTimes clamp h') = true then
        (bodyOf (applyChown chown (clampTimes clamp h')) w.content).bind fun b => .ok (some (clampTimes clamp h', b))
        else (.error () : Except Unit (Option (Hdr × Bytes)))) = .ok e) ↔
      accepts (Spec.clamped clamp h') = true ∧ (h'.typeflag = '0' → ∃ c, w.content = some c ∧ (c.length : Int) = h'.size) := by
    intro h'
    rw [clampTimes_eq, bodyOf_chown]
    by_cases ha : accepts (Spec.clamped clamp h') = true
    · rw [if_pos ha]
      have := bodyOf_exists (Spec.clamped clamp h') w.content
      constructor
      · rintro ⟨e, he⟩
        refine ⟨ha, ?_⟩
        cases hb : bodyOf (Spec.clamped clamp h') w.content with
        | error u => rw [hb] at he; cases he
        | ok b => exact this.1 ⟨b, hb⟩
      · rintro ⟨_, hc⟩
        obtain ⟨b, hb⟩ := this.2 hc
        rw [hb]
        exact ⟨_, rfl⟩
    · rw [if_neg ha]
      constructor
      · rintro ⟨e, he⟩; cases he
      · rintro ⟨h, _⟩; exact absurd h ha
  unfold walkEntry
  cases he : w.err with
  | true => simp
  | false =>
    rw [if_neg (by simp), if_neg hd]
    cases hi : w.info with
    | none => simp
    | some h =>
      simp only [true_and, Option.some.injEq, exists_eq_left', hardLink, find_map_log]
      cases hf : before.find? (fun f => f.file = w.file) with
      | some f =>
        simp only [Option.map_some]
        rw [show readLink w.target { h with name := entryName pre w.rel, typeflag := typeLink, linkname := entryName pre f.rel } =
          .ok { h with name := entryName pre w.rel, typeflag := typeLink, linkname := entryName pre f.rel } from rfl]
        refine (hbody _).trans ?_
        constructor
        · exact fun x => x.1
        · exact fun x => ⟨x, fun h => absurd (show typeLink = '0' from h) (by decide)⟩
      | none =>
        simp only [Option.map_none, readLink]
        by_cases hs : h.typeflag = typeSymlink
        · have hs' : h.typeflag = '2' := hs
          rw [if_pos hs]
          cases ht : w.target with
          | none => simp [Except.bind, hs']
          | some t =>
            refine (hbody _).trans ?_
            simp [hs']
        · have hs' : h.typeflag ≠ '2' := hs
          rw [if_neg hs]
          refine (hbody _).trans ?_
          simp [hs']

theorem walkEntries_exists {accepts : Hdr → Bool} {pre : Option Prefix} {chown : Option Ownership} {clamp : Int} (before ws : List WalkItem) :
    (∃ es, walkEntries accepts pre chown clamp (before.map (fun w => (entryName pre w.rel, w.file))) ws = .ok es) ↔
      (∀ w ∈ ws, w.err = false) ∧ ∀ i (h : i < (Spec.tree ws).length),
        Spec.Packable accepts (entryName pre) clamp (before ++ (Spec.tree ws).take i) (Spec.tree ws)[i] := by
  induction ws generalizing before with
  | nil => simp [walkEntries, Spec.tree]
  | cons w ws ih =>
    rw [walkEntries]
    have hb : ∀ log, (∃ es, (walkEntry accepts pre chown clamp (before.map (fun w => (entryName pre w.rel, w.file))) w).bind (fun e =>
        (walkEntries accepts pre chown clamp log ws).bind fun es => .ok (e.toList ++ es)) = .ok es) ↔
        (∃ e, walkEntry accepts pre chown clamp (before.map (fun w => (entryName pre w.rel, w.file))) w = .ok e) ∧
          ∃ es, walkEntries accepts pre chown clamp log ws = .ok es := by
      intro log
      cases walkEntry accepts pre chown clamp (before.map (fun w => (entryName pre w.rel, w.file))) w with
      | error u => simp [Except.bind]
      | ok e =>
        cases walkEntries accepts pre chown clamp log ws with
        | error u => simp [Except.bind]
        | ok es => simp [Except.bind]
    rw [hb]
    by_cases hd : w.rel = ['.']
    · rw [walkLog, if_pos hd, ih before]
      have ht : Spec.tree (w :: ws) = Spec.tree ws := by simp [Spec.tree, hd]
      have hw : (∃ e, walkEntry accepts pre chown clamp (before.map (fun w => (entryName pre w.rel, w.file))) w = .ok e) ↔ w.err = false := by
        unfold walkEntry
        rw [if_pos hd]
        cases w.err <;> simp
      rw [hw]
      simp only [ht, List.forall_mem_cons, and_assoc]
    · rw [walkLog, if_neg hd]
      have hl : before.map (fun w => (entryName pre w.rel, w.file)) ++ [(entryName pre w.rel, w.file)] =
          (before ++ [w]).map (fun w => (entryName pre w.rel, w.file)) := by simp
      rw [hl, ih (before ++ [w]), walkEntry_exists hd]
      have ht : Spec.tree (w :: ws) = w :: Spec.tree ws := by simp [Spec.tree, hd]
      simp only [ht, List.forall_mem_cons, List.length_cons]
      constructor
      · rintro ⟨h1, h2, h3⟩
        refine ⟨⟨h1.1, h2⟩, ?_⟩
        intro i hi
        cases i with
        | zero => simpa using h1
        | succ i => simpa using h3 i (by omega)
      · rintro ⟨⟨h1, h2⟩, h3⟩
        refine ⟨by simpa using h3 0 (by omega), h2, ?_⟩
        intro i hi
        simpa using h3 (i + 1) (by omega)

theorem layerFromDir_exists {n : Nat} {accepts : Hdr → Bool} {pre : Option Prefix} {chown : Option Ownership} {zero clamp : Int}
    {walk : List WalkItem} :
    (∃ es, layerFromDir n accepts pre chown zero clamp walk = some (.ok es)) ↔
      (∃ ps, prefixEntries n accepts pre zero clamp = some (.ok ps)) ∧ Spec.AllPackable accepts (entryName pre) clamp walk := by
  have hw := walkEntries_exists (accepts := accepts) (pre := pre) (chown := chown) (clamp := clamp) [] walk
  simp only [List.map_nil, List.nil_append] at hw
  unfold Spec.AllPackable
  rw [← hw]
  constructor
  · rintro ⟨es, h⟩
    obtain ⟨ps, ts, h1, h2, _⟩ := layerFromDir_ok h
    exact ⟨⟨ps, h1⟩, ⟨ts, h2⟩⟩
  · rintro ⟨⟨ps, h1⟩, ⟨ts, h2⟩⟩
    exact ⟨ps ++ ts, by simp [layerFromDir, h1, h2, Except.bind]⟩

theorem packable_congr {accepts : Hdr → Bool} {name name' : Str → Str} {clamp : Int} {ws : List WalkItem}
    (h : ∀ w ∈ Spec.tree ws, name w.rel = name' w.rel) :
    Spec.AllPackable accepts name clamp ws ↔ Spec.AllPackable accepts name' clamp ws := by
  unfold Spec.AllPackable
  apply and_congr Iff.rfl
  apply forall_congr'
  intro i
  apply forall_congr'
  intro hi
  unfold Spec.Packable
  rw [h _ (List.getElem_mem hi)]
  cases hf : ((Spec.tree ws).take i).find? (fun f => f.file = (Spec.tree ws)[i].file) with
  | none => rfl
  | some f =>
    have hm : f ∈ Spec.tree ws := List.mem_of_mem_take (List.mem_of_find?_eq_some hf)
    simp only [h f hm]

/-! ### properties -/

/-- **C147**, without prefix: `LayerFromDir` makes a layer if and only if the walk reports no error and each file of the tree can be put in
it. -/
theorem C147_no_prefix {n : Nat} {accepts : Hdr → Bool} {chown : Option Ownership} {zero clamp : Int} {walk : List WalkItem} :
    (∃ es, layerFromDir n accepts none chown zero clamp walk = some (.ok es)) ↔ Spec.AllPackable accepts id clamp walk := by
  rw [layerFromDir_exists, packable_congr (name := entryName none) (name' := id) (fun w _ => rfl)]
  simp [prefixEntries]

/-- **C147**, with a relative cleaned prefix with elements `cs`: also the directories leading to the prefix must have headers that can be
written. -/
theorem C147_prefix {n : Nat} {accepts : Hdr → Bool} {p : Prefix} {chown : Option Ownership} {zero clamp : Int} {walk : List WalkItem}
    {cs : List Str} (hp : p.dirName = join ['/'] cs) (hcs : cs ≠ []) (hpl : ∀ c ∈ cs, Plain c)
    (hw : ∀ w ∈ Spec.tree walk, Spec.InTree w.rel) (hn : cs.length < n) :
    (∃ es, layerFromDir n accepts (some p) chown zero clamp walk = some (.ok es)) ↔
      (∀ i < cs.length, accepts (Spec.prefixDir p zero clamp (join ['/'] (cs.take (i + 1)))) = true) ∧
      Spec.AllPackable accepts (fun r => p.dirName ++ '/' :: r) clamp walk := by
  have hce : CleanElems false cs := ⟨0, cs, by simp, hpl, fun _ => rfl⟩
  have hren : p.dirName = render false cs := by rw [hp]; simp [render, hcs]
  have hname : ∀ w ∈ Spec.tree walk, entryName (some p) w.rel = p.dirName ++ '/' :: w.rel := by
    intro w h
    obtain ⟨rs, h1, h2, h3⟩ := hw w h
    refine entryName_prefix ?_ ?_ ?_ h3 h1 h2
    · rw [hren]; exact clean_render hce
    · rw [hren]; exact isRooted_render (fun c hc => ⟨(hpl c hc).1, (hpl c hc).2.2.2⟩)
    · rw [hren]
      intro e
      exact hcs (render_inj hce (show CleanElems false [] from ⟨0, [], rfl, by simp, fun _ => rfl⟩) (e.trans rfl)).2
  rw [layerFromDir_exists, packable_congr (name' := fun r => p.dirName ++ '/' :: r) hname]
  apply and_congr _ Iff.rfl
  unfold prefixEntries
  simp only [hren, prefixDirs_render hce hn, List.reverse_reverse, Option.map_some, Option.some.injEq]
  have hall : ((Spec.leading cs).map (prefixHdr zero clamp p)).all accepts = true ↔
      ∀ i < cs.length, accepts (prefixHdr zero clamp p (join ['/'] (cs.take (i + 1)))) = true := by
    simp [Spec.leading, List.all_eq_true]
  refine Iff.trans ?_ hall
  split
  · rename_i h; simp [h]
  · rename_i h; simp [h]

theorem refEntries_exists {accepts : Hdr → Bool} {clamp : Int} (fs : List FileRef) :
    (∃ es, refEntries accepts clamp fs = .ok es) ↔ ∀ f ∈ fs, Spec.RefPackable accepts clamp f := by
  induction fs with
  | nil => simp [refEntries]
  | cons f fs ih =>
    have hf : (∃ e, refEntry accepts clamp f = .ok e) ↔ Spec.RefPackable accepts clamp f := by
      unfold refEntry Spec.RefPackable
      cases hi : f.info with
      | none => simp
      | some h =>
        simp only [Option.some.injEq, exists_eq_left', clampTimes_eq]
        have := bodyOf_exists (Spec.clamped clamp { h with name := f.name }) f.content
        by_cases ha : accepts (Spec.clamped clamp { h with name := f.name }) = true
        · rw [if_pos ha]
          cases hb : bodyOf (Spec.clamped clamp { h with name := f.name }) f.content with
          | error u =>
            rw [hb] at this
            constructor
            · rintro ⟨e, he⟩; cases he
            · rintro ⟨_, hx⟩; obtain ⟨b, hb⟩ := this.2 hx; cases hb
          | ok b =>
            constructor
            · exact fun _ => ⟨ha, this.1 ⟨b, hb⟩⟩
            · exact fun _ => ⟨_, rfl⟩
        · rw [if_neg ha]
          simp [ha]
    rw [List.forall_mem_cons, ← hf, ← ih, refEntries]
    cases refEntry accepts clamp f with
    | error u => simp [Except.bind]
    | ok e =>
      cases refEntries accepts clamp fs with
      | error u => simp [Except.bind]
      | ok es => simp [Except.bind]

/-- **C147**: `LayerFromFileReferences` makes a layer if and only if each of the references can be put in it, in whatever order they are
given and however many there are. -/
theorem C147_refs {srt : (FileRef → FileRef → Bool) → List FileRef → List FileRef} (hs : SortSlice srt) (accepts : Hdr → Bool) (clamp : Int)
    (l : List FileRef) :
    (∃ es, layerFromRefs srt accepts clamp l = .ok es) ↔ ∀ f ∈ l, Spec.RefPackable accepts clamp f := by
  unfold layerFromRefs
  rw [refEntries_exists]
  exact forall_congr' fun f => by rw [(hs.perm _ l).mem_iff]

/-- the sample tree can be put in a layer; with the target of its symlink unreadable it cannot -/
example : Spec.AllPackable (fun _ => true) id 5 sampleWalk :=
  (C147_no_prefix (n := 0) (chown := none) (zero := 0)).1 ⟨_, rfl⟩

example : ¬ Spec.AllPackable (fun _ => true) id 5 (sampleWalk.map (fun w => { w with target := none })) := by
  rw [← C147_no_prefix (n := 0) (chown := none) (zero := 0)]
  rintro ⟨es, h⟩
  exact absurd h (by intro h; cases h)

/-- the hypotheses on the prefix are met by "usr/bin", and the layer can be made exactly if no name is too long for `accepts` -/
example : (∃ es, layerFromDir 3 (fun h => h.name.length < 12) (some ⟨"usr/bin".toList, 0, ⟨0, [], 0, []⟩⟩) none 0 5 sampleWalk = some (.ok es)) ∧
    ¬ ∃ es, layerFromDir 3 (fun h => h.name.length < 11) (some ⟨"usr/bin".toList, 0, ⟨0, [], 0, []⟩⟩) none 0 5 sampleWalk = some (.ok es) := by
  refine ⟨⟨_, rfl⟩, ?_⟩
  rintro ⟨es, h⟩
  exact absurd h (by intro h; cases h)

example : Spec.RefPackable (fun h => h.name = "a".toList) 5 ⟨"a".toList, some (sampleHdr [] '0' 3 2), some [1, 2]⟩ ∧
    ¬ Spec.RefPackable (fun _ => true) 5 ⟨"a".toList, some (sampleHdr [] '0' 3 2), some [1]⟩ := by
  refine ⟨⟨_, rfl, by decide, fun _ => ⟨_, rfl, rfl⟩⟩, ?_⟩
  rintro ⟨h, h1, _, h2⟩
  cases h1
  obtain ⟨c, h3, h4⟩ := h2 rfl
  cases h3
  cases h4

end Fsutil
