import Verif.Bdist.Install
import Verif.Bdist.PropsZip
import Verif.Python.PropsStat
/-!
C47: rewriting of scripts.  C48: the default upper bound for times.  C49: modes of installed files.
-/
namespace Bdist
open Go Fsutil Python

/-! ### C49 -/

/-- the file is recorded as a regular file with one of the three execute bits -/
def Spec.Executable (attrs : BitVec 32) : Prop :=
  (attrs >>> 16).setWidth 16 &&& 0xF000#16 = 0x8000#16 ∧ (attrs >>> 16).setWidth 16 &&& 0o111#16 ≠ 0#16

theorem isExecutable_iff (h : ZHdr) : isExecutable h = true ↔ Spec.Executable h.attrs := by
  unfold isExecutable Spec.Executable parseZipAttrs isRegular
  simp only [Bool.and_eq_true, decide_eq_true_eq]
  exact Iff.rfl

/-- the header that the archive's header becomes in the layer -/
def Spec.Becomes (r : Ref) (typeflag : Char) (mode : Int) (size : Int) (mtime : Int) : Prop :=
  ∃ h, r.info = some h ∧ h.typeflag = typeflag ∧ h.mode = mode ∧ h.size = size ∧ h.modTime = mtime

theorem mode_unix (h : ZHdr) (hc : h.creator = 0x300#16) :
    h.mode = if hasSuffix h.name ['/'] then zipUnixMode (parseZipAttrs h.attrs).unix ||| goDir
      else zipUnixMode (parseZipAttrs h.attrs).unix := by
  unfold ZHdr.mode
  simp only [hc]
  rw [if_pos (show (0x300#16 >>> 8 = 3#16 ∨ 0x300#16 >>> 8 = 19#16) by decide)]
  rfl

/-- a cleaned name ends in "/" only if it is the root -/
theorem clean_no_slash {s : Str} (h : clean s ≠ ['/']) : hasSuffix (clean s) ['/'] = false := by
  rw [Bool.eq_false_iff]
  intro hs
  obtain ⟨b, hb⟩ := (hasSuffix_iff _ _).mp hs
  obtain ⟨cs, hce, hcl⟩ := clean_shape s
  rcases List.eq_nil_or_concat cs with rfl | ⟨ds, c, rfl⟩
  · cases hr : isRooted s with
    | true => rw [hcl, hr] at h; exact h (by decide)
    | false => rw [hcl, hr] at hb; have := congrArg List.getLast? hb; simp [render] at this
  · rw [List.concat_eq_append] at hce hcl
    have hcne : c ≠ [] ∧ '/' ∉ c := by
      obtain ⟨n, ps, he, hp, _⟩ := hce
      have hm : c ∈ List.replicate n ['.', '.'] ++ ps := he ▸ List.mem_append_right _ (List.mem_singleton.mpr rfl)
      rcases List.mem_append.mp hm with hm | hm
      · rw [List.eq_of_mem_replicate hm]; decide
      · exact ⟨(hp c hm).1, (hp c hm).2.2.2⟩
    have hlast : (clean s).getLast? = c.getLast? := by
      rw [hcl]
      have key : ∀ ds : List Str, (join ['/'] (ds ++ [c])).getLast? = c.getLast? := by
        intro ds
        induction ds with
        | nil => rfl
        | cons d ds ih =>
          rw [List.cons_append]
          cases hd : ds ++ [c] with
          | nil => simp at hd
          | cons e es =>
            rw [join_cons (by simp), ← hd]
            rw [List.getLast?_append, List.getLast?_append, ih]
            cases hcl : c.getLast? with
            | none => exact absurd (List.getLast?_eq_none_iff.mp hcl) hcne.1
            | some x => rfl
      cases hr : isRooted s with
      | true =>
        unfold render
        rw [if_pos rfl, List.getLast?_cons, key]
        cases hcl : c.getLast? with
        | none => exact absurd (List.getLast?_eq_none_iff.mp hcl) hcne.1
        | some x => rfl
      | false =>
        unfold render
        rw [if_neg (by decide)]
        split
        · rename_i h0; simp at h0
        · exact key ds
    rw [hb, List.getLast?_append] at hlast
    simp only [List.getLast?_singleton, Option.some_or] at hlast
    exact hcne.2 (List.mem_of_getLast? hlast.symm)

/-- **C49**: what `create` makes of an archive entry that is installed as `name`: a directory with mode 0755 iff the name in
the archive ends in "/"; otherwise a regular file, with mode 0755 if the external attributes say that it is a regular file
with some execute bit, and 0644 if not.  For all 2³² values of the attributes; nothing else of them survives, and neither
does the operating system they are for. -/
theorem C49_modes (mtime : Option Int) (name : Str) (h : ZHdr) (c : Option Bytes) (hn : hasSuffix name ['/'] = false) :
    ((∃ b, h.name = b ++ ['/']) → Spec.Becomes (.zip (createHdr mtime name h) c none) '5' 0o755 0 (mtime.getD h.modified)) ∧
    ((¬ ∃ b, h.name = b ++ ['/']) → Spec.Executable h.attrs →
      Spec.Becomes (.zip (createHdr mtime name h) c none) '0' 0o755 h.size (mtime.getD h.modified)) ∧
    ((¬ ∃ b, h.name = b ++ ['/']) → ¬ Spec.Executable h.attrs →
      Spec.Becomes (.zip (createHdr mtime name h) c none) '0' 0o644 h.size (mtime.getD h.modified)) := by
  rw [← hasSuffix_iff, ← isExecutable_iff]
  unfold Spec.Becomes Ref.info zipInfo
  simp only [ZHdr.isDir]
  rw [mode_unix _ rfl]
  unfold createHdr
  simp only [C73_parse_raw]
  refine ⟨?_, ?_, ?_⟩
  · intro h1
    have hs : hasSuffix (name ++ ['/']) ['/'] = true := (hasSuffix_iff _ _).mpr ⟨name, rfl⟩
    simp only [h1, if_true, hs]
    rw [if_pos (by decide)]
    exact ⟨_, rfl, rfl, by simp only; decide, rfl, rfl⟩
  · intro h1 h2
    simp only [if_neg h1]
    simp only [h2, if_true, hn, Bool.false_eq_true, if_false]
    rw [if_neg (by decide), if_pos (by decide)]
    exact ⟨_, rfl, rfl, by simp only; decide, rfl, rfl⟩
  · intro h1 h2
    simp only [if_neg h1, if_neg h2]
    simp only [hn, Bool.false_eq_true, if_false]
    rw [if_neg (by decide), if_pos (by decide)]
    exact ⟨_, rfl, rfl, by simp only; decide, rfl, rfl⟩

/-- the name an entry gets does not end in "/" as `C49_modes` asks, unless it is the root itself -/
theorem C49_names (dst : Str) (n : Str) (h : pathJoin [dst, n] ≠ ['/']) : hasSuffix (pathJoin [dst, n]) ['/'] = false := by
  have hj : pathJoin [dst, n] = [] ∨ ∃ s, pathJoin [dst, n] = clean s := by
    unfold pathJoin
    split
    · exact Or.inl rfl
    · exact Or.inr ⟨_, rfl⟩
  rcases hj with hj | ⟨s, hj⟩
  · rw [hj]; rfl
  · rw [hj] at h ⊢
    exact clean_no_slash h

/-- **C49**, the following steps: moving a file to another directory changes nothing but its name. -/
theorem C49_rename (h : ZHdr) (c : Option Bytes) (rec : Option (Str × Int)) (new : Str) (hc : h.creator = 0x300#16)
    (hn : hasSuffix new ['/'] = false) (hd : hasSuffix h.name ['/'] = true ↔ h.isDir = true) :
    (renameRef new (.zip h c rec)).info = (Ref.info (.zip h c rec)).map (fun x => { x with name := if h.isDir then new ++ ['/'] else new }) ∧
    (renameRef new (.zip h c rec)).content = c := by
  refine ⟨?_, rfl⟩
  have hmode : (ZHdr.mk (if h.isDir then new ++ ['/'] else new) h.creator h.attrs h.modified h.size).mode = h.mode := by
    rw [mode_unix h hc, mode_unix (ZHdr.mk (if h.isDir then new ++ ['/'] else new) h.creator h.attrs h.modified h.size) hc]
    by_cases he : h.isDir = true
    · simp only [he, if_true, hd.mpr he]
      rw [if_pos (by rw [hasSuffix_iff]; exact ⟨new, rfl⟩)]
    · simp only [if_neg he, hn]
      rw [if_neg (by decide), if_neg (fun x => he (hd.mp x))]
  unfold renameRef Ref.info zipInfo ZHdr.isDir at *
  simp only [hmode]
  split
  · rfl
  · split <;> rfl

/-- an executable script recorded on Unix, a directory, and a file from Windows, whose attributes have no Unix mode -/
example : Spec.Becomes (.zip (createHdr none "d/x".toList ⟨"x".toList, 0x300#16, 0x81ED0000#32, 7, 3⟩) none none) '0' 0o755 3 7 ∧
    Spec.Becomes (.zip (createHdr (some 9) "d/x".toList ⟨"x/".toList, 0x300#16, 0x81ED0000#32, 7, 3⟩) none none) '5' 0o755 0 9 ∧
    Spec.Becomes (.zip (createHdr none "d/x".toList ⟨"x".toList, 0#16, 0x20#32, 7, 3⟩) none none) '0' 0o644 3 7 := by
  refine ⟨(C49_modes none "d/x".toList ⟨"x".toList, 0x300#16, 0x81ED0000#32, 7, 3⟩ none (by decide)).2.1 ?_ (by unfold Spec.Executable; decide),
    (C49_modes (some 9) "d/x".toList ⟨"x/".toList, 0x300#16, 0x81ED0000#32, 7, 3⟩ none (by decide)).1 ⟨['x'], rfl⟩,
    (C49_modes none "d/x".toList ⟨"x".toList, 0#16, 0x20#32, 7, 3⟩ none (by decide)).2.2 ?_ (by unfold Spec.Executable; decide)⟩
  all_goals rw [← hasSuffix_iff]; decide

/-! ### C48 -/

/-- the beginning of the year 1, which is the zero value of `time.Time`, in nanoseconds from the beginning of 1970: 719162 days earlier -/
def Spec.yearOne : Int := -(719162 * 24 * 3600 * 1000000000)

theorem zeroTime_eq : Spec.yearOne = zeroTime := by decide

/-- **C48**: if some entry has a time after the zero time, the bound used when none is given is a whole number of seconds,
later than the time of every entry, and by no more than a second and a half later than the latest one. -/
theorem C48_max_time (now : Int) (zip : List ZFile) (h : ∃ f ∈ zip, f.hdr.modified > Spec.yearOne) :
    (∃ s, defaultMaxTime now zip = s * 1000000000) ∧
    (∀ f ∈ zip, f.hdr.modified < defaultMaxTime now zip) ∧
    ∃ f ∈ zip, defaultMaxTime now zip ≤ f.hdr.modified + 1500000000 := by
  have key : ∀ (zip : List ZFile) (m0 : Int),
      let m := zip.foldl (fun m f => if f.hdr.modified > m then f.hdr.modified else m) m0
      m0 ≤ m ∧ (∀ f ∈ zip, f.hdr.modified ≤ m) ∧ (m = m0 ∨ ∃ f ∈ zip, f.hdr.modified = m) := by
    intro zip
    induction zip with
    | nil => intro m0; simp
    | cons f fs ih =>
      intro m0
      simp only [List.foldl_cons]
      obtain ⟨h1, h2, h3⟩ := ih (if f.hdr.modified > m0 then f.hdr.modified else m0)
      refine ⟨?_, ?_, ?_⟩
      · refine Int.le_trans ?_ h1
        split <;> omega
      · intro g hg
        rcases List.mem_cons.mp hg with rfl | hg
        · refine Int.le_trans ?_ h1
          split <;> omega
        · exact h2 g hg
      · rcases h3 with h3 | ⟨g, hg, h3⟩
        · by_cases hf : f.hdr.modified > m0
          · rw [if_pos hf] at h3 ⊢
            exact Or.inr ⟨f, by simp, h3.symm⟩
          · rw [if_neg hf] at h3 ⊢
            exact Or.inl h3
        · exact Or.inr ⟨g, by simp [hg], h3⟩
  rw [zeroTime_eq] at h
  obtain ⟨h1, h2, h3⟩ := key zip zeroTime
  unfold defaultMaxTime
  simp only
  obtain ⟨f, hf, hz⟩ := h
  have hne : zip.foldl (fun m f => if f.hdr.modified > m then f.hdr.modified else m) zeroTime ≠ zeroTime := by
    have := h2 f hf
    omega
  rw [if_neg hne]
  have hr : ∀ t, roundSecond t + 500000000 ≥ t ∧ roundSecond t ≤ t + 500000000 := by
    intro t; unfold roundSecond; omega
  refine ⟨⟨(zip.foldl (fun m f => if f.hdr.modified > m then f.hdr.modified else m) zeroTime + 500000000) / 1000000000 + 1, ?_⟩, ?_, ?_⟩
  · unfold roundSecond; omega
  · intro g hg
    have := h2 g hg
    have := (hr (zip.foldl (fun m f => if f.hdr.modified > m then f.hdr.modified else m) zeroTime)).1
    omega
  · rcases h3 with h3 | ⟨g, hg, h3⟩
    · exact absurd h3 hne
    · refine ⟨g, hg, ?_⟩
      rw [h3]
      have := (hr (zip.foldl (fun m f => if f.hdr.modified > m then f.hdr.modified else m) zeroTime)).2
      omega

/-- **C48**, otherwise: the bound is the current time -/
theorem C48_no_times (now : Int) (zip : List ZFile) (h : ∀ f ∈ zip, f.hdr.modified ≤ Spec.yearOne) : defaultMaxTime now zip = now := by
  rw [zeroTime_eq] at h
  unfold defaultMaxTime
  have : zip.foldl (fun m f => if f.hdr.modified > m then f.hdr.modified else m) zeroTime = zeroTime := by
    induction zip with
    | nil => rfl
    | cons f fs ih =>
      rw [List.foldl_cons, if_neg (by have := h f (by simp); omega)]
      exact ih (fun g hg => h g (by simp [hg]))
  simp only [this, if_true]

/-- **C48**, the consequence: no time of an unpacked entry is changed by the clamping to the bound -/
theorem C48_not_clamped (now : Int) (zip : List ZFile) (h : ∃ f ∈ zip, f.hdr.modified > Spec.yearOne) {f : ZFile} (hf : f ∈ zip)
    (hdr : Hdr) (hm : hdr.modTime = f.hdr.modified) : (clampTimes (defaultMaxTime now zip) hdr).modTime = f.hdr.modified := by
  have := (C48_max_time now zip h).2.1 f hf
  unfold clampTimes
  simp only
  have hn : ¬ hdr.modTime > defaultMaxTime now zip := by omega
  simp only [if_neg hn]
  split <;> split <;> exact hm

/-- times 1.4 s and 1.6 s: the bound is 3 s; 1.4 s only: 2 s -/
example : defaultMaxTime 5 [⟨⟨[], 0#16, 0#32, 1400000000, 0⟩, none⟩, ⟨⟨[], 0#16, 0#32, 1600000000, 0⟩, none⟩] = 3000000000 ∧
    defaultMaxTime 5 [⟨⟨[], 0#16, 0#32, 1400000000, 0⟩, none⟩] = 2000000000 := by decide +kernel

/-! ### C47 -/

theorem readUpTo_flatten (k : Nat) (cs : List Bytes) :
    (readUpTo k cs).1 ++ (readUpTo k cs).2.flatten = cs.flatten ∧ (readUpTo k cs).1.length = min k cs.flatten.length := by
  induction cs generalizing k with
  | nil => simp [readUpTo]
  | cons c cs ih =>
    unfold readUpTo
    split
    · rename_i hk; simp [hk]
    · split
      · rename_i hle
        obtain ⟨h1, h2⟩ := ih (k - c.length)
        simp only [List.append_assoc, List.flatten_cons, List.length_append, h1, h2, true_and]
        omega
      · simp only [List.flatten_cons, ← List.append_assoc, List.take_append_drop, true_and, List.length_take, List.length_append]
        omega

theorem read_flatten (k : Nat) (r : Rd) :
    (Rd.read k r).1 ++ (Rd.read k r).2.2.chunks.flatten = r.chunks.flatten ∧ (Rd.read k r).2.2.fin = r.fin ∧
    ((Rd.read k r).2.1 = none ∨ (Rd.read k r).2.1 = some r.fin ∧ r.chunks = [] ∧ (Rd.read k r).1 = []) := by
  unfold Rd.read
  split
  · rename_i h; simp [h]
  · rename_i c cs h
    split <;> simp [h, ← List.append_assoc]

/-- reading on from a `skipReader` that has nothing left to skip -/
theorem readAll_zero (ks : List Nat) (inner : Rd) :
    (∃ rest, (SkipReader.readAll ks ⟨0, inner⟩).1 ++ rest = inner.chunks.flatten) ∧
    ∀ e, (SkipReader.readAll ks ⟨0, inner⟩).2 = some e → e = inner.fin ∧ (SkipReader.readAll ks ⟨0, inner⟩).1 = inner.chunks.flatten := by
  induction ks generalizing inner with
  | nil => exact ⟨⟨_, rfl⟩, fun _ h => by cases h⟩
  | cons k ks ih =>
    obtain ⟨h1, h2, h3⟩ := read_flatten k inner
    unfold SkipReader.readAll SkipReader.read
    simp only [Nat.lt_irrefl, if_false, gt_iff_lt]
    rcases h3 with h3 | ⟨h3, h4, h5⟩
    · simp only [h3]
      obtain ⟨⟨rest, i1⟩, i2⟩ := ih (Rd.read k inner).2.2
      refine ⟨⟨rest, by rw [List.append_assoc, i1, h1]⟩, fun e he => ?_⟩
      obtain ⟨j1, j2⟩ := i2 e he
      exact ⟨j1.trans h2, by rw [j2, h1]⟩
    · simp only [h3, h5]
      exact ⟨⟨_, rfl⟩, fun e he => ⟨(Option.some.inj he).symm, by rw [h4]; rfl⟩⟩

theorem read_first (k : Nat) (n : Nat) (inner : Rd) (hn : n ≤ inner.chunks.flatten.length) :
    ∃ inner', inner'.chunks.flatten = inner.chunks.flatten.drop n ∧ inner'.fin = inner.fin ∧
      SkipReader.read k ⟨n, inner⟩ = SkipReader.read k ⟨0, inner'⟩ := by
  by_cases h0 : n = 0
  · subst h0; exact ⟨inner, rfl, rfl, rfl⟩
  obtain ⟨h1, h2⟩ := readUpTo_flatten n inner.chunks
  have hl : (readUpTo n inner.chunks).1.length = n := by omega
  refine ⟨⟨(readUpTo n inner.chunks).2, inner.fin⟩, ?_, rfl, ?_⟩
  · rw [← h1]
    exact (List.drop_left' hl).symm
  · unfold SkipReader.read
    rw [if_pos (show n > 0 by omega), if_neg (by simp)]
    unfold readFull
    simp only [hl, ge_iff_le, Nat.le_refl, if_true, Nat.sub_self]

/-- **C47**, streaming: whatever the chunks in which the original content arrives and whatever the sizes of the buffers,
what is read through a `skipReader` is the original content without its first `n` bytes: always a beginning of it, and all
of it when the end is reported. -/
theorem C47_stream (ks : List Nat) (n : Nat) (inner : Rd) (hn : n ≤ inner.chunks.flatten.length) :
    (∃ rest, (SkipReader.readAll ks ⟨n, inner⟩).1 ++ rest = inner.chunks.flatten.drop n) ∧
    ∀ e, (SkipReader.readAll ks ⟨n, inner⟩).2 = some e → e = inner.fin ∧
      (SkipReader.readAll ks ⟨n, inner⟩).1 = inner.chunks.flatten.drop n := by
  cases ks with
  | nil => exact ⟨⟨_, rfl⟩, fun _ h => by cases h⟩
  | cons k ks =>
    obtain ⟨inner', h1, h2, h3⟩ := read_first k n inner hn
    have he : SkipReader.readAll (k :: ks) ⟨n, inner⟩ = SkipReader.readAll (k :: ks) ⟨0, inner'⟩ := by
      unfold SkipReader.readAll
      rw [h3]
    rw [he, ← h1, ← h2]
    exact readAll_zero (k :: ks) inner'

/-- the reads needed at most to reach the end of the chunks -/
def readsLeft (cs : List Bytes) : Nat := cs.length + cs.flatten.length

theorem readAll_ends (ks : List Nat) (inner : Rd) (hpos : ∀ k ∈ ks, 0 < k) (hlen : readsLeft inner.chunks < ks.length) :
    (SkipReader.readAll ks ⟨0, inner⟩).2 ≠ none := by
  induction ks generalizing inner with
  | nil => simp at hlen
  | cons k ks ih =>
    unfold SkipReader.readAll SkipReader.read
    simp only [Nat.lt_irrefl, if_false, gt_iff_lt]
    cases hc : inner.chunks with
    | nil =>
      unfold Rd.read
      rw [hc]
      simp
    | cons c cs =>
      have hk := hpos k (by simp)
      have hrl : readsLeft (Rd.read k inner).2.2.chunks < readsLeft inner.chunks := by
        unfold Rd.read
        rw [hc]
        simp only
        split
        · simp only [readsLeft, List.length_cons, List.flatten_cons, List.length_append]; omega
        · simp only [readsLeft, List.length_cons, List.flatten_cons, List.length_append, List.length_drop]; omega
      have hnone : (Rd.read k inner).2.1 = none := by
        unfold Rd.read
        rw [hc]
        simp only
        split <;> rfl
      simp only [hnone]
      apply ih
      · exact fun x hx => hpos x (by simp [hx])
      · simp only [List.length_cons] at hlen
        exact Nat.lt_of_lt_of_le hrl (by omega)

/-- **C47**, streaming: the end is reported, given enough reads with buffers that are not empty. -/
theorem C47_stream_ends (ks : List Nat) (n : Nat) (inner : Rd) (hn : n ≤ inner.chunks.flatten.length) (hpos : ∀ k ∈ ks, 0 < k)
    (hlen : inner.chunks.length + inner.chunks.flatten.length + 1 < ks.length) :
    SkipReader.readAll ks ⟨n, inner⟩ = (inner.chunks.flatten.drop n, some inner.fin) := by
  have hend : (SkipReader.readAll ks ⟨n, inner⟩).2 ≠ none := by
    cases ks with
    | nil => simp at hlen
    | cons k ks =>
      by_cases h0 : n = 0
      · subst h0
        refine readAll_ends (k :: ks) inner hpos ?_
        unfold readsLeft; omega
      · have hcount : ∀ (n : Nat) (cs : List Bytes), readsLeft (readUpTo n cs).2 ≤ readsLeft cs := by
          intro n cs
          induction cs generalizing n with
          | nil => exact Nat.le_refl _
          | cons c cs ih =>
            unfold readUpTo
            split
            · exact Nat.le_refl _
            · split
              · have := ih (n - c.length)
                simp only [readsLeft, List.length_cons, List.flatten_cons, List.length_append] at this ⊢
                omega
              · simp only [readsLeft, List.length_cons, List.flatten_cons, List.length_append, List.length_drop]
                omega
        obtain ⟨h1, h2⟩ := readUpTo_flatten n inner.chunks
        have hl : (readUpTo n inner.chunks).1.length = n := by omega
        have he : SkipReader.readAll (k :: ks) ⟨n, inner⟩ = SkipReader.readAll (k :: ks) ⟨0, ⟨(readUpTo n inner.chunks).2, inner.fin⟩⟩ := by
          unfold SkipReader.readAll SkipReader.read
          rw [if_pos (show n > 0 by omega), if_neg (by simp)]
          unfold readFull
          simp only [hl, ge_iff_le, Nat.le_refl, if_true, Nat.sub_self]
        rw [he]
        refine readAll_ends (k :: ks) _ hpos ?_
        have := hcount n inner.chunks
        unfold readsLeft at this ⊢
        simp only
        omega
  obtain ⟨_, h⟩ := C47_stream ks n inner hn
  cases he : (SkipReader.readAll ks ⟨n, inner⟩).2 with
  | none => exact absurd he hend
  | some e =>
    obtain ⟨rfl, h2⟩ := h e he
    rw [← h2, ← he]

/-- **C47**, streaming: if there are not that many bytes to skip, the first read delivers nothing and fails, at the end of the content with
`io.ErrUnexpectedEOF` and never with `io.EOF`. -/
theorem C47_short (ks : List Nat) (hks : ks ≠ []) (n : Nat) (inner : Rd) (hn : inner.chunks.flatten.length < n) :
    SkipReader.readAll ks ⟨n, inner⟩ = ([], some (if inner.fin = .eof then .unexpectedEOF else inner.fin)) := by
  obtain ⟨_, h2⟩ := readUpTo_flatten n inner.chunks
  cases ks with
  | nil => exact absurd rfl hks
  | cons k ks =>
    unfold SkipReader.readAll SkipReader.read
    rw [if_pos (show n > 0 by omega)]
    unfold readFull
    simp only
    rw [if_neg (show ¬ (readUpTo n inner.chunks).1.length ≥ n by omega)]
    by_cases hf : inner.fin = .eof
    · by_cases hl : (readUpTo n inner.chunks).1.length > 0
      · rw [if_pos ⟨hf, hl⟩]; simp [hf]
      · rw [if_neg (fun x => hl x.2)]
    · rw [if_neg (fun x => hf x.1)]

/-- **C47**, streaming: a read that failed while skipping (say, with a timeout) has counted what it got.  If more content arrives
afterwards, reading goes on as if both had been one: what is delivered is a beginning of all the content without its first `n` bytes. -/
theorem C47_resumes (k : Nat) (ks : List Nat) (n : Nat) (inner later : Rd) (hn : inner.chunks.flatten.length < n)
    (hl : n ≤ (inner.chunks.flatten ++ later.chunks.flatten).length) :
    ∃ rest, (SkipReader.readAll ks ⟨((SkipReader.mk n inner).read k).2.2.skip, later⟩).1 ++ rest =
      (inner.chunks.flatten ++ later.chunks.flatten).drop n := by
  obtain ⟨_, h2⟩ := readUpTo_flatten n inner.chunks
  have hs : ((SkipReader.mk n inner).read k).2.2.skip = n - inner.chunks.flatten.length := by
    unfold SkipReader.read
    rw [if_pos (show n > 0 by omega)]
    unfold readFull
    simp only
    rw [if_neg (show ¬ (readUpTo n inner.chunks).1.length ≥ n by omega)]
    split
    · simp only; omega
    · rename_i h; split at h <;> cases h
  rw [hs, List.drop_append, List.drop_of_length_le (by omega), List.nil_append]
  rw [List.length_append] at hl
  exact (C47_stream ks _ later (by omega)).1

example : ((SkipReader.mk 4 ⟨[[1], [], [2]], .unexpectedEOF⟩).read 9).2.2.skip = 2 ∧
    SkipReader.readAll [1, 2, 5, 5] ⟨2, ⟨[[3], [4, 5], [6]], .eof⟩⟩ = ([5, 6], some .eof) := by decide +kernel

example : SkipReader.readAll [1, 2] ⟨9, ⟨[[1], [], [2, 3, 4], [5]], .eof⟩⟩ = ([], some .unexpectedEOF) := by decide +kernel

example : SkipReader.readAll [1, 2, 5, 5, 5] ⟨2, ⟨[[1], [], [2, 3, 4], [5]], .eof⟩⟩ = ([3, 4, 5], some .eof) := by decide +kernel

namespace Spec

/-- the file `r` becomes `r'`: the new content, if any, with the size corrected by as much as the content has grown, the
execute bits set, and the hash and size of the old content kept for RECORD; everything else unchanged -/
def NewContent (digest : Str → Bytes → Str) (old new : Bytes) (r r' : Ref) : Prop :=
  ∃ h h', r = .zip h (some old) none ∧ r' = .zip h' (some new) (some ("sha256=".toList ++ digest "sha256".toList old, old.length)) ∧
    h'.name = h.name ∧ h'.creator = h.creator ∧ h'.modified = h.modified ∧
    h'.size - new.length = h.size - old.length ∧
    parseZipAttrs h'.attrs = { parseZipAttrs h.attrs with unix := (parseZipAttrs h.attrs).unix ||| 0o111#16 }

/-- what becomes of a script: `#!pythonw` and `#!python` are replaced, nothing else is touched -/
def Rewritten (digest : Str → Bytes → Str) (plat : Platform) (r r' : Ref) : Prop :=
  ∃ old, r.content = some old ∧
    ((∃ rest, old = enc "#!pythonw".toList ++ rest ∧
        NewContent digest old (enc "#!".toList ++ enc plat.graphicalShebang ++ rest) r r') ∨
     (∃ rest, old = enc "#!python".toList ++ rest ∧ (¬ ∃ rest', old = enc "#!pythonw".toList ++ rest') ∧
        NewContent digest old (enc "#!".toList ++ enc plat.consoleShebang ++ rest) r r') ∨
     ((¬ ∃ rest, old = enc "#!python".toList ++ rest) ∧ r' = r))

end Spec

theorem enc_lits : enc "#!pythonw".toList = enc "#!python".toList ++ [119] ∧ (enc "#!pythonw".toList).length = 9 ∧
    (enc "#!python".toList).length = 8 ∧ (enc "#!".toList).length = 2 := by decide +kernel

theorem rewriteZip_new (digest : Str → Bytes → Str) (shebang : Str) (mark rest : Bytes) (h : ZHdr) :
    Spec.NewContent digest (mark ++ rest) (enc "#!".toList ++ enc shebang ++ rest) (.zip h (some (mark ++ rest)) none)
      (rewriteZip digest shebang mark.length h (mark ++ rest)) := by
  have e4 := enc_lits.2.2.2
  refine ⟨h, { h with size := h.size + (2 + (enc shebang).length) - mark.length, attrs := ZipAttrs.raw { parseZipAttrs h.attrs with unix := (parseZipAttrs h.attrs).unix ||| 0o111#16 } },
    rfl, ?_, rfl, rfl, rfl, ?_, ?_⟩
  · unfold rewriteZip
    simp only [List.drop_left]
    rfl
  · simp only [List.length_append, e4]
    omega
  · simp only [C73_parse_raw]

theorem rewriteScript_spec (digest : Str → Bytes → Str) (plat : Platform) {r r' : Ref}
    (h : rewriteScript digest plat (some r) = some (.ok r')) : Spec.Rewritten digest plat r r' := by
  obtain ⟨e1, e2, e3, e4⟩ := enc_lits
  unfold rewriteScript at h
  simp only at h
  cases hc : r.content with
  | none => rw [hc] at h; cases h
  | some old =>
    rw [hc] at h
    simp only at h
    refine ⟨old, hc, ?_⟩
    by_cases hp : (enc "#!python".toList).isPrefixOf (old.take (enc "#!pythonw".toList).length) = true
    · rw [hp] at h
      simp only [Bool.not_true, Bool.false_eq_true, if_false] at h
      have hpre : enc "#!python".toList <+: old := (List.isPrefixOf_iff_prefix.mp hp).trans (List.take_prefix _ _)
      cases r with
      | other f => simp at h
      | zip hd c rec =>
        cases rec with
        | some x => simp at h
        | none =>
          have hcc : c = some old := hc
          subst hcc
          simp only at h
          by_cases hw : old.take (enc "#!pythonw".toList).length = enc "#!pythonw".toList
          · rw [if_pos hw] at h
            cases h
            refine Or.inl ?_
            refine ⟨old.drop 9, ?_, ?_⟩
            · rw [← hw, e2]; exact (List.take_append_drop _ _).symm
            · have hold : old = enc "#!pythonw".toList ++ old.drop 9 := by
                rw [← hw, e2]; exact (List.take_append_drop _ _).symm
              have := rewriteZip_new digest plat.graphicalShebang (enc "#!pythonw".toList) (old.drop 9) hd
              rw [← hold, e2] at this
              exact this
          · rw [if_neg hw] at h
            cases h
            refine Or.inr (Or.inl ?_)
            obtain ⟨rest, rfl⟩ := hpre
            refine ⟨rest, rfl, ?_, ?_⟩
            · rintro ⟨rest', he⟩
              apply hw
              rw [he, List.take_left]
            · have := rewriteZip_new digest plat.consoleShebang (enc "#!python".toList) rest hd
              rw [e3] at this
              exact this
    · rw [Bool.not_eq_true] at hp
      rw [hp] at h
      simp only [Bool.not_false, if_true] at h
      cases h
      refine Or.inr (Or.inr ⟨?_, rfl⟩)
      rintro ⟨rest, rfl⟩
      rw [Bool.eq_false_iff] at hp
      apply hp
      rw [List.isPrefixOf_iff_prefix, e2, List.take_append, List.take_of_length_le (by rw [e3]; decide)]
      exact List.prefix_append _ _

/-- **C47**: `rewritePython`, in any order of the files moved to a scheme directory.  If it succeeds, every file that came
from `scripts` is rewritten as `Spec.Rewritten` says, and every other file is as before. -/
theorem C47_rewrite (digest : Str → Bytes → Str) (plat : Platform) (order : List (Str × Str)) (hnd : (order.map (·.1)).Nodup)
    (vfs vfs' : Map Ref) (h : rewritePython digest plat order vfs = some (.ok vfs')) (name : Str) :
    ((name, "scripts".toList) ∈ order → ∃ r r', vfs.get? name = some r ∧ vfs'.get? name = some r' ∧ Spec.Rewritten digest plat r r') ∧
    ((name, "scripts".toList) ∉ order → vfs'.get? name = vfs.get? name) := by
  induction order generalizing vfs with
  | nil =>
    unfold rewritePython at h
    cases h
    exact ⟨fun x => (nomatch x), fun _ => rfl⟩
  | cons e es ih =>
    obtain ⟨n, key⟩ := e
    rw [List.map_cons, List.nodup_cons] at hnd
    unfold rewritePython at h
    by_cases hk : key ≠ "scripts".toList
    · rw [if_pos hk] at h
      obtain ⟨i1, i2⟩ := ih hnd.2 vfs h
      constructor
      · intro hm
        rcases List.mem_cons.mp hm with hm | hm
        · cases hm; exact absurd rfl hk
        · exact i1 hm
      · intro hm
        exact i2 (fun x => hm (List.mem_cons_of_mem _ x))
    · rw [if_neg hk] at h
      rw [Classical.not_not] at hk
      subst hk
      split at h
      · cases h
      · cases h
      · rename_i r' hr
        obtain ⟨i1, i2⟩ := ih hnd.2 _ h
        by_cases hn : name = n
        · subst hn
          have hnot : (name, "scripts".toList) ∉ es := fun x => hnd.1 (List.mem_map.mpr ⟨_, x, rfl⟩)
          have hres := i2 hnot
          rw [Map.get?_set, if_pos rfl] at hres
          cases hv : vfs.get? name with
          | none => rw [hv] at hr; cases hr
          | some r =>
            rw [hv] at hr
            exact ⟨fun _ => ⟨r, r', rfl, hres, rewriteScript_spec digest plat hr⟩, fun x => absurd List.mem_cons_self x⟩
        · rw [Map.get?_set, if_neg hn] at i1 i2
          constructor
          · intro hm
            rcases List.mem_cons.mp hm with hm | hm
            · cases hm; exact absurd rfl hn
            · exact i1 hm
          · exact fun hm => i2 (fun x => hm (List.mem_cons_of_mem _ x))

/-- the plain case: a script, a graphical script, and a binary that happens to be there -/
example :
    let plat : Platform := ⟨"/py".toList, "/pyw".toList, ⟨[], [], [], [], []⟩, 0, 0, [], []⟩
    let ref (n : Str) (b : Str) : Ref := .zip ⟨n, 0x300#16, 0x81A40000#32, 0, b.length⟩ (some (enc b)) none
    (rewritePython toyDigest plat [("b/x".toList, "scripts".toList), ("b/y".toList, "scripts".toList), ("b/z".toList, "scripts".toList)]
      [("b/x".toList, ref "b/x".toList "#!python\n1".toList), ("b/y".toList, ref "b/y".toList "#!pythonw".toList), ("b/z".toList, ref "b/z".toList "#!py".toList)]).map
        (fun r => r.map (fun m => ["b/x".toList, "b/y".toList, "b/z".toList].map (fun n => (m.get? n).bind Ref.content))) =
      some (.ok [some (enc "#!/py\n1".toList), some (enc "#!/pyw".toList), some (enc "#!py".toList)]) := by
  decide +kernel

end Bdist
