import Verif.Bdist.Zip
import Verif.Go.PathDir
/-!
C50: which directory is taken for the `.dist-info` directory.
C41: what the integrity check establishes, as an exact characterisation.
-/
namespace Bdist
open Go Fsutil Python

namespace Spec

/-- the first element of the cleaned name of an entry -/
def top (f : ZFile) : Str := (clean f.hdr.name).takeWhile (· ≠ '/')

/-- `d` ends in ".dist-info" -/
def InfoName (d : Str) : Prop := ∃ b, d = b ++ ".dist-info".toList

/-- `d` is the one top-level name ending in ".dist-info" -/
def TheInfoDir (zip : List ZFile) (d : Str) : Prop :=
  InfoName d ∧ (∃ f ∈ zip, top f = d) ∧ ∀ f ∈ zip, InfoName (top f) → top f = d

/-- `f` is the first entry of the archive with the cleaned name `n` -/
def FirstNamed (zip : List ZFile) (n : Str) (f : ZFile) : Prop :=
  ∃ before after, zip = before ++ f :: after ∧ clean f.hdr.name = n ∧ ∀ g ∈ before, clean g.hdr.name ≠ n

/-- the row of RECORD tells the truth about the archive: it has three fields; the file it names is there and readable;
the checksum, if given, is a strong one of the file's content, and the size, if given, is its size in decimal; and both
are given unless it is RECORD itself -/
def TrueRow (digest : Str → Bytes → Str) (record : Str) (zip : List ZFile) (row : List Str) : Prop :=
  ∃ name hash size f content, row = [name, hash, size] ∧ FirstNamed zip (clean name) f ∧ f.content = some content ∧
    (hash = [] ∨ ∃ algo, (algo = "sha256".toList ∨ algo = "sha384".toList ∨ algo = "sha512".toList) ∧
      hash = algo ++ "=".toList ++ digest algo content) ∧
    (size = [] ∨ size = itoa content.length) ∧
    ((hash ≠ [] ∧ size ≠ []) ∨ clean name = record)

/-- the row names that (cleaned) file -/
def Names (row : List Str) (n : Str) : Prop := ∃ name hash size, row = [name, hash, size] ∧ clean name = n

end Spec

/-! ### C50 -/

theorem takeWhile_no {s : Str} (h : '/' ∉ s) : s.takeWhile (· ≠ '/') = s := by
  induction s with
  | nil => rfl
  | cons c s ih =>
    simp only [List.mem_cons, not_or] at h
    rw [List.takeWhile_cons, if_pos (by simpa using Ne.symm h.1), ih h.2]

theorem headD_split (s : Str) : (split '/' s).headD [] = s.takeWhile (· ≠ '/') := by
  induction s with
  | nil => rfl
  | cons c s ih =>
    rw [split]
    by_cases h : c = '/'
    · subst h; simp
    · rw [if_neg h, List.takeWhile_cons, if_pos (by simpa using h)]
      cases hs : split '/' s with
      | nil => exact absurd hs (split_ne_nil _ _)
      | cons a as => rw [hs] at ih; simp only [List.headD_cons] at ih ⊢; rw [ih]

theorem hasSuffix_iff (s t : Str) : hasSuffix s t = true ↔ ∃ b, s = b ++ t := by
  unfold hasSuffix
  rw [List.isSuffixOf_iff_suffix]
  exact ⟨fun ⟨b, h⟩ => ⟨b, h.symm⟩, fun ⟨b, h⟩ => ⟨b, h.symm⟩⟩

theorem infoDirs_mem (zip : List ZFile) (d : Str) : d ∈ infoDirs zip ↔ Spec.InfoName d ∧ ∃ f ∈ zip, Spec.top f = d := by
  induction zip with
  | nil => simp [infoDirs]
  | cons f fs ih =>
    unfold infoDirs
    rw [headD_split]
    by_cases h : hasSuffix (Spec.top f) distInfoSuffix = true
    · have hi : Spec.InfoName (Spec.top f) := (hasSuffix_iff _ _).mp h
      rw [show (clean f.hdr.name).takeWhile (· ≠ '/') = Spec.top f from rfl]
      simp only [h, if_true]
      have key : (d = Spec.top f ∨ d ∈ infoDirs fs) ↔ Spec.InfoName d ∧ ∃ g ∈ f :: fs, Spec.top g = d := by
        rw [ih]
        constructor
        · rintro (rfl | ⟨h1, g, hg, h2⟩)
          · exact ⟨hi, f, by simp, rfl⟩
          · exact ⟨h1, g, by simp [hg], h2⟩
        · rintro ⟨h1, g, hg, h2⟩
          rcases List.mem_cons.mp hg with rfl | hg
          · exact Or.inl h2.symm
          · exact Or.inr ⟨h1, g, hg, h2⟩
      rw [← key]
      by_cases hm : Spec.top f ∈ infoDirs fs
      · rw [if_pos hm]
        exact ⟨Or.inr, fun x => x.elim (fun e => e ▸ hm) id⟩
      · rw [if_neg hm, List.mem_cons]
    · rw [show (clean f.hdr.name).takeWhile (· ≠ '/') = Spec.top f from rfl]
      simp only [if_neg h]
      rw [ih]
      constructor
      · rintro ⟨h1, g, hg, h2⟩
        exact ⟨h1, g, by simp [hg], h2⟩
      · rintro ⟨h1, g, hg, h2⟩
        rcases List.mem_cons.mp hg with rfl | hg
        · exact absurd ((hasSuffix_iff _ _).mpr (h2 ▸ h1)) h
        · exact ⟨h1, g, hg, h2⟩

theorem infoDirs_nodup (zip : List ZFile) : (infoDirs zip).Nodup := by
  induction zip with
  | nil => exact List.nodup_nil
  | cons f fs ih =>
    unfold infoDirs
    simp only
    split
    · split
      · exact ih
      · exact List.nodup_cons.mpr ⟨by assumption, ih⟩
    · exact ih

/-- **C50**: `distInfoDir` returns `d` exactly when `d` is the only name ending in ".dist-info" among the first elements of
the cleaned entry names -/
theorem C50_dist_info (zip : List ZFile) (d : Str) : distInfoDir zip = .ok d ↔ Spec.TheInfoDir zip d := by
  have hn := infoDirs_nodup zip
  have hm := infoDirs_mem zip
  unfold distInfoDir Spec.TheInfoDir
  constructor
  · intro h
    cases hl : infoDirs zip with
    | nil => rw [hl] at h; cases h
    | cons a as =>
      cases as with
      | nil =>
        rw [hl] at h
        cases h
        have h1 := (hm d).mp (by rw [hl]; simp)
        refine ⟨h1.1, h1.2, fun f hf hi => ?_⟩
        have := (hm (Spec.top f)).mpr ⟨hi, f, hf, rfl⟩
        rw [hl] at this
        simpa using this
      | cons b bs => rw [hl] at h; cases h
  · rintro ⟨h1, h2, h3⟩
    have hd := (hm d).mpr ⟨h1, h2⟩
    have hall : ∀ x ∈ infoDirs zip, x = d := by
      intro x hx
      obtain ⟨hx1, f, hf, rfl⟩ := (hm x).mp hx
      exact h3 f hf hx1
    cases hl : infoDirs zip with
    | nil => rw [hl] at hd; cases hd
    | cons a as =>
      rw [hl] at hall hn
      have ha := hall a (by simp)
      cases as with
      | nil => simp [ha]
      | cons b bs =>
        have hb := hall b (by simp)
        rw [List.nodup_cons] at hn
        exact absurd (by rw [ha, hb]; simp) hn.1

/-- sample archive: `x-1.dist-info/` with RECORD and WHEEL, and a module -/
def sampleFile (name : String) (content : Bytes) : ZFile := ⟨⟨name.toList, 0x300#16, 0o100644#16 ++ 0#16, 5, content.length⟩, some content⟩

def sampleZip : List ZFile :=
  [sampleFile "m/a.py" [1, 2], sampleFile "x-1.dist-info/WHEEL" [3], sampleFile "./x-1.dist-info//RECORD" [4],
   sampleFile "x-1.dist-info/RECORD.jws" [5]]

example : Spec.TheInfoDir sampleZip "x-1.dist-info".toList ∧ distInfoDir sampleZip = .ok "x-1.dist-info".toList := by
  have h : distInfoDir sampleZip = .ok "x-1.dist-info".toList := by decide +kernel
  exact ⟨(C50_dist_info _ _).mp h, h⟩

/-- two `.dist-info` directories, or none, are refused -/
example : distInfoDir (sampleFile "y.dist-info/x" [] :: sampleZip) = .error () ∧ distInfoDir (sampleZip.take 1) = .error () := by
  decide +kernel

/-! ### C41 -/

theorem find_first (zip : List ZFile) (n : Str) (f : ZFile) :
    zip.find? (fun f => clean f.hdr.name = n) = some f ↔ Spec.FirstNamed zip n f := by
  unfold Spec.FirstNamed
  rw [List.find?_eq_some_iff_append]
  constructor
  · rintro ⟨h1, a, b, rfl, h2⟩
    exact ⟨a, b, rfl, by simpa using h1, fun g hg => by simpa using h2 g hg⟩
  · rintro ⟨a, b, rfl, h1, h2⟩
    exact ⟨by simpa using h1, a, b, rfl, fun g hg => by simpa using h2 g hg⟩

theorem top_plain {f : ZFile} {d : Str} (h : Spec.top f = d) (hi : Spec.InfoName d) : Plain d := by
  obtain ⟨b, hb⟩ := hi
  have hlen : 10 ≤ d.length := by rw [hb]; simp
  refine ⟨?_, ?_, ?_, ?_⟩
  · rintro rfl; simp at hlen
  · rintro rfl; simp at hlen
  · rintro rfl; simp at hlen
  · intro hm
    rw [← h] at hm
    have : ∀ (s : Str), '/' ∉ s.takeWhile (· ≠ '/') := by
      intro s
      induction s with
      | nil => simp
      | cons c s ih =>
        rw [List.takeWhile_cons]
        split
        · rename_i hc
          simp only [List.mem_cons, not_or]
          exact ⟨by simpa using Ne.symm (by simpa using hc), ih⟩
        · simp
    exact this _ hm

theorem join_info {d n : Str} (hd : Plain d) (hn : Plain n) : pathJoin [d, n] = d ++ '/' :: n := by
  rw [pathJoin_plain hd.1 hn]
  have hr : isRooted d = false := by
    cases d with
    | nil => rfl
    | cons c d =>
      unfold isRooted
      have : c ≠ '/' := by rintro rfl; exact hd.2.2.2 (by simp)
      simp [this]
  have hs : split '/' d = [d] := split_none (fun c hc hx => hd.2.2.2 (hx ▸ hc))
  rw [hr, hs]
  have : cleanElems false [d] = [d] := cleanElems_id ⟨0, [d], rfl, by simpa using hd, by simp⟩
  rw [this]
  simp [render, join]

theorem algo_takeWhile {a x : Str} (h : '=' ∉ a) : (a ++ '=' :: x).takeWhile (· ≠ '=') = a := by
  induction a with
  | nil => simp
  | cons c a ih =>
    simp only [List.mem_cons, not_or] at h
    rw [List.cons_append, List.takeWhile_cons, if_pos (by simpa using Ne.symm h.1), ih h.2]

theorem strong_iff (a : Str) : a ∈ strongHashes ↔ a = "sha256".toList ∨ a = "sha384".toList ∨ a = "sha512".toList := by
  simp [strongHashes]

theorem strong_noeq {a : Str} (h : a ∈ strongHashes) : '=' ∉ a ∧ a ≠ [] := by
  rw [strong_iff] at h
  rcases h with rfl | rfl | rfl <;> decide +kernel

theorem checkFile_ok (digest : Str → Bytes → Str) (zip : List ZFile) (name algo : Str) (r : Str × Int) :
    checkFile digest zip (clean name) algo = .ok r ↔ ∃ f c, Spec.FirstNamed zip (clean name) f ∧ f.content = some c ∧
      (algo = [] ∨ algo ∈ strongHashes) ∧ r = (if algo = [] then [] else algo ++ '=' :: digest algo c, (c.length : Int)) := by
  unfold checkFile
  rw [clean_idem]
  constructor
  · intro h
    split at h
    · cases h
    · rename_i f hf
      split at h
      · cases h
      · rename_i halgo
        split at h
        · cases h
        · rename_i c hc
          cases h
          refine ⟨f, c, (find_first _ _ _).mp hf, hc, ?_, rfl⟩
          by_cases ha : algo = []
          · exact Or.inl ha
          · exact Or.inr (Classical.byContradiction fun hx => halgo ⟨ha, hx⟩)
  · rintro ⟨f, c, hf, hc, ha, rfl⟩
    rw [(find_first _ _ _).mpr hf]
    simp only [hc]
    rw [if_neg]
    rintro ⟨h1, h2⟩
    exact ha.elim h1 h2

theorem rowOK_iff (digest : Str → Bytes → Str) (dir : Str) (zip : List ZFile) (row : List Str) :
    rowOK digest dir zip row = true ↔ Spec.TrueRow digest (pathJoin [dir, "RECORD".toList]) zip row := by
  unfold Spec.TrueRow
  constructor
  · intro h
    unfold rowOK at h
    split at h
    · rename_i name hash size
      simp only at h
      cases hc : checkFile digest zip (clean name) (hash.takeWhile (· ≠ '=')) with
      | error e => rw [hc] at h; cases h
      | ok r =>
        rw [hc] at h
        obtain ⟨f, c, hf, hcont, halgo, rfl⟩ := (checkFile_ok _ _ _ _ _).mp hc
        simp only [Bool.and_eq_true, Bool.or_eq_true, decide_eq_true_eq, Bool.not_eq_true', Bool.or_eq_false_iff,
          decide_eq_false_iff_not] at h
        obtain ⟨⟨h1, h2⟩, h3⟩ := h
        refine ⟨name, hash, size, f, c, rfl, hf, hcont, ?_, h3.imp id Eq.symm, h1⟩
        by_cases hh : hash = []
        · exact Or.inl hh
        · have h2 := h2.resolve_left hh
          refine Or.inr ⟨hash.takeWhile (· ≠ '='), ?_⟩
          by_cases he : hash.takeWhile (· ≠ '=') = []
          · rw [if_pos he] at h2; exact absurd h2.symm hh
          · rw [if_neg he] at h2
            exact ⟨(strong_iff _).mp (halgo.resolve_left he), by simpa using h2.symm⟩
    · cases h
  · rintro ⟨name, hash, size, f, c, rfl, hf, hcont, h1, h2, h3⟩
    have hc : checkFile digest zip (clean name) (hash.takeWhile (· ≠ '=')) = .ok (hash, (c.length : Int)) := by
      rw [checkFile_ok]
      refine ⟨f, c, hf, hcont, ?_⟩
      rcases h1 with rfl | ⟨a, ha, rfl⟩
      · exact ⟨Or.inl rfl, by simp⟩
      · rw [← strong_iff] at ha
        rw [List.append_assoc, show "=".toList ++ digest a c = '=' :: digest a c from rfl, algo_takeWhile (strong_noeq ha).1]
        exact ⟨Or.inr ha, by rw [if_neg (strong_noeq ha).2]⟩
    unfold rowOK
    simp only [hc, Bool.and_eq_true, Bool.or_eq_true, decide_eq_true_eq, Bool.not_eq_true', Bool.or_eq_false_iff,
      decide_eq_false_iff_not]
    exact ⟨⟨h3, Or.inr trivial⟩, h2.imp id Eq.symm⟩

theorem rowName_iff (rows : List (List Str)) (n : Str) : some n ∈ rows.map rowName ↔ ∃ row ∈ rows, Spec.Names row n := by
  rw [List.mem_map]
  constructor
  · rintro ⟨row, hr, h⟩
    refine ⟨row, hr, ?_⟩
    unfold rowName at h
    split at h
    · rename_i name hash size
      cases h
      exact ⟨name, hash, size, rfl, rfl⟩
    · cases h
  · rintro ⟨row, hr, name, hash, size, rfl, rfl⟩
    exact ⟨_, hr, rfl⟩

/-- **C41**: the integrity check passes exactly when there is a single `.dist-info` directory `d`, `d/RECORD` (its first
entry, if there are several) is readable CSV, every row of it is true of the archive, and every entry that is not a
directory, other than `d/RECORD.jws` and `d/RECORD.p7s`, is named by a row.  For all digest functions and CSV readers. -/
theorem C41_exact (digest : Str → Bytes → Str) (csv : Bytes → Option (List (List Str))) (zip : List ZFile) :
    integrityCheck digest csv zip = .ok () ↔
      ∃ d record text rows, Spec.TheInfoDir zip d ∧ Spec.FirstNamed zip (d ++ "/RECORD".toList) record ∧
        record.content = some text ∧ csv text = some rows ∧
        (∀ row ∈ rows, Spec.TrueRow digest (d ++ "/RECORD".toList) zip row) ∧
        ∀ f ∈ zip, f.hdr.isDir = false → clean f.hdr.name ≠ d ++ "/RECORD.jws".toList →
          clean f.hdr.name ≠ d ++ "/RECORD.p7s".toList → ∃ row ∈ rows, Spec.Names row (clean f.hdr.name) := by
  have names : ∀ d, Spec.TheInfoDir zip d → pathJoin [d, "RECORD".toList] = d ++ "/RECORD".toList ∧
      pathJoin [d, "RECORD.jws".toList] = d ++ "/RECORD.jws".toList ∧
      pathJoin [d, "RECORD.p7s".toList] = d ++ "/RECORD.p7s".toList := by
    rintro d ⟨hi, ⟨f, _, hf⟩, _⟩
    have hp := top_plain hf hi
    exact ⟨join_info hp (by unfold Plain; decide +kernel), join_info hp (by unfold Plain; decide +kernel), join_info hp (by unfold Plain; decide +kernel)⟩
  have opened : ∀ d, clean (d ++ "/RECORD".toList) = d ++ "/RECORD".toList → ∀ text, openWheel zip (d ++ "/RECORD".toList) = some text ↔
      ∃ record, Spec.FirstNamed zip (d ++ "/RECORD".toList) record ∧ record.content = some text := by
    intro d hd text
    unfold openWheel
    rw [hd, Option.bind_eq_some_iff]
    exact ⟨fun ⟨f, h1, h2⟩ => ⟨f, (find_first _ _ _).mp h1, h2⟩, fun ⟨f, h1, h2⟩ => ⟨f, (find_first _ _ _).mpr h1, h2⟩⟩
  have cln : ∀ d, Spec.TheInfoDir zip d → clean (d ++ "/RECORD".toList) = d ++ "/RECORD".toList := by
    intro d hd
    have h1 := (names d hd).1
    obtain ⟨hi, ⟨f, _, hf⟩, _⟩ := hd
    have hp := top_plain hf hi
    rw [← h1, pathJoin_plain hp.1 (show Plain "RECORD".toList by unfold Plain; decide +kernel), clean_render]
    have hc := cleanElems_ok (rooted := isRooted d) (cs := split '/' d) (fun _ hc => split_no_sep hc)
    have hr : isRooted d = false := by
      cases d with
      | nil => rfl
      | cons c d =>
        have : c ≠ '/' := by rintro rfl; exact hp.2.2.2 (by simp)
        simp [isRooted, this]
    rw [hr, split_none (sep := '/') (fun c hc hx => hp.2.2.2 (hx ▸ hc)), show cleanElems false [d] = [d] from cleanElems_id ⟨0, [d], rfl, by simpa using hp, by simp⟩]
    refine ⟨0, [d, "RECORD".toList], rfl, ?_, by simp⟩
    intro c hc
    rcases List.mem_cons.mp hc with rfl | hc
    · exact hp
    · rcases List.mem_cons.mp hc with rfl | hc
      · unfold Plain; decide +kernel
      · cases hc
  unfold integrityCheck
  cases hd : distInfoDir zip with
  | error e =>
    simp only [reduceCtorEq, false_iff]
    rintro ⟨d, _, _, _, h, _⟩
    rw [(C50_dist_info _ _).mpr h] at hd
    cases hd
  | ok d =>
    have ht := (C50_dist_info _ _).mp hd
    have huniq : ∀ d', Spec.TheInfoDir zip d' → d' = d := by
      intro d' h
      rw [(C50_dist_info _ _).mpr h] at hd
      cases hd; rfl
    obtain ⟨n1, n2, n3⟩ := names d ht
    have hopen := opened d (cln d ht)
    simp only [n1]
    cases ho : openWheel zip (d ++ "/RECORD".toList) with
    | none =>
      simp only [reduceCtorEq, false_iff]
      rintro ⟨d', r, t, _, h, h1, h2, _⟩
      cases huniq d' h
      rw [(hopen t).mpr ⟨r, h1, h2⟩] at ho
      cases ho
    | some text =>
      simp only
      have htext : ∀ r t, Spec.FirstNamed zip (d ++ "/RECORD".toList) r → r.content = some t → t = text := by
        intro r t h1 h2
        have := (hopen t).mpr ⟨r, h1, h2⟩
        rw [ho] at this
        cases this; rfl
      cases hcsv : csv text with
      | none =>
        simp only [reduceCtorEq, false_iff]
        rintro ⟨d', r, t, rows, h, h1, h2, h3, _⟩
        cases huniq d' h
        cases htext r t h1 h2
        rw [hcsv] at h3
        cases h3
      | some rows =>
        simp only
        have hall : rows.all (rowOK digest d zip) = true ↔ ∀ row ∈ rows, Spec.TrueRow digest (d ++ "/RECORD".toList) zip row := by
          rw [List.all_eq_true]
          simp only [rowOK_iff, n1]
        have htodo : ((todoNames d zip).filter (fun n => some n ∉ rows.map rowName)).isEmpty = true ↔
            ∀ f ∈ zip, f.hdr.isDir = false → clean f.hdr.name ≠ d ++ "/RECORD.jws".toList →
              clean f.hdr.name ≠ d ++ "/RECORD.p7s".toList → ∃ row ∈ rows, Spec.Names row (clean f.hdr.name) := by
          rw [List.isEmpty_iff, List.filter_eq_nil_iff]
          unfold todoNames
          simp only [n2, n3]
          simp only [List.mem_filter, List.mem_map, Bool.not_eq_true', Bool.and_eq_true, decide_eq_true_eq,
            Classical.not_not]
          constructor
          · intro h f hf h1 h2 h3
            exact (rowName_iff _ _).mp (List.mem_map.mpr (h _ ⟨⟨f, ⟨hf, h1⟩, rfl⟩, h2, h3⟩))
          · rintro h n ⟨⟨f, ⟨hf, h1⟩, rfl⟩, h2, h3⟩
            exact List.mem_map.mp ((rowName_iff _ _).mpr (h f hf h1 h2 h3))
        constructor
        · intro h
          split at h
          · rename_i hb
            rw [Bool.and_eq_true] at hb
            obtain ⟨r, h1, h2⟩ := (hopen text).mp ho
            exact ⟨d, r, text, rows, ht, h1, h2, hcsv, hall.mp hb.1, htodo.mp hb.2⟩
          · cases h
        · rintro ⟨d', r, t, rows', h, h1, h2, h3, h4, h5⟩
          cases huniq d' h
          cases htext r t h1 h2
          rw [hcsv] at h3
          cases h3
          rw [if_pos (by rw [Bool.and_eq_true]; exact ⟨hall.mpr h4, htodo.mpr h5⟩)]

/-! #### which entries the check takes for directories -/

theorem goDir_bit (b : FileMode) : (b &&& goDir ≠ 0#32) ↔ b.getLsbD 31 = true := by
  have hd : ∀ i, i < 32 → goDir.getLsbD i = decide (i = 31) := by decide
  constructor
  · intro h
    apply Classical.byContradiction
    intro hb
    apply h
    apply BitVec.eq_of_getLsbD_eq
    intro i hi
    rw [BitVec.getLsbD_and, hd i hi, BitVec.getLsbD_zero]
    by_cases he : i = 31
    · subst he; rw [Bool.eq_false_iff.mpr hb]; rfl
    · simp [he]
  · intro h h0
    have : (b &&& goDir).getLsbD 31 = false := by rw [h0]; rfl
    rw [BitVec.getLsbD_and, h] at this
    revert this
    decide

theorem zipUnixMode_dir (m : BitVec 16) : (zipUnixMode m).getLsbD 31 = true ↔ m &&& modeFmt = modeFmtDir := by
  have hl : ((m &&& 0o777#16).setWidth 32 : FileMode).getLsbD 31 = false := by
    rw [BitVec.getLsbD_setWidth, BitVec.getLsbD_of_ge _ _ (by decide)]; rfl
  have hor : ∀ (c : Prop) [Decidable c] (g x : FileMode), x.getLsbD 31 = false →
      (if c then g ||| x else g).getLsbD 31 = g.getLsbD 31 := by
    intro c _ g x hx
    split
    · rw [BitVec.getLsbD_or, hx, Bool.or_false]
    · rfl
  unfold zipUnixMode
  simp only
  rw [hor _ _ _ (by decide), hor _ _ _ (by decide), hor _ _ _ (by decide), BitVec.getLsbD_or, hl, Bool.false_or]
  constructor
  · intro h
    split at h
    · exact absurd h (by decide)
    · split at h
      · exact absurd h (by decide)
      · split at h
        · assumption
        · repeat' split at h
          all_goals exact absurd h (by decide)
  · intro h
    rw [h]
    decide

theorem zipDosMode_dir (a : BitVec 32) : (zipDosMode a).getLsbD 31 = true ↔ a.getLsbD 4 = true := by
  have hb : (a &&& 0x10#32 ≠ 0#32) ↔ a.getLsbD 4 = true := by
    have hd : ∀ i, i < 32 → (0x10#32).getLsbD i = decide (i = 4) := by decide
    constructor
    · intro h
      apply Classical.byContradiction
      intro hb
      apply h
      apply BitVec.eq_of_getLsbD_eq
      intro i hi
      rw [BitVec.getLsbD_and, hd i hi, BitVec.getLsbD_zero]
      by_cases he : i = 4
      · subst he; rw [Bool.eq_false_iff.mpr hb]; rfl
      · simp [he]
    · intro h h0
      have : (a &&& 0x10#32).getLsbD 4 = false := by rw [h0]; rfl
      rw [BitVec.getLsbD_and, h] at this
      revert this
      decide
  unfold zipDosMode
  simp only
  rw [← hb]
  by_cases h1 : a &&& 0x10#32 ≠ 0#32
  · simp only [if_pos h1]
    split <;> simp_all <;> decide
  · simp only [if_neg h1]
    split <;> simp_all <;> decide

/-- **C41**, what "directory" means there: an entry is taken for a directory, and so need not be in RECORD, exactly when its
name ends in "/", or it was made on Unix or macOS and its mode says directory, or it was made on DOS or Windows and has the
directory attribute.  So an entry can be a directory here without its name ending in "/". -/
theorem C41_directories (h : ZHdr) : h.isDir = true ↔
    (∃ b, h.name = b ++ ['/']) ∨
    ((h.creator >>> 8 = 3#16 ∨ h.creator >>> 8 = 19#16) ∧ (h.attrs >>> 16).setWidth 16 &&& 0xF000#16 = 0x4000#16) ∨
    ((h.creator >>> 8 = 0#16 ∨ h.creator >>> 8 = 11#16 ∨ h.creator >>> 8 = 14#16) ∧ h.attrs.getLsbD 4 = true) := by
  have hm : modeFmt = 0xF000#16 := by decide
  have hmd : modeFmtDir = 0x4000#16 := by decide
  unfold ZHdr.isDir
  rw [decide_eq_true_eq, goDir_bit, ← hasSuffix_iff]
  unfold ZHdr.mode
  simp only
  by_cases hs : hasSuffix h.name ['/'] = true
  · rw [if_pos hs]
    simp only [BitVec.getLsbD_or, hs, true_or, iff_true]
    rw [show goDir.getLsbD 31 = true by decide, Bool.or_true]
  · rw [if_neg hs]
    simp only [hs, false_or, Bool.false_eq_true]
    by_cases hu : h.creator >>> 8 = 3#16 ∨ h.creator >>> 8 = 19#16
    · rw [if_pos hu, zipUnixMode_dir, hm, hmd]
      constructor
      · exact fun x => Or.inl ⟨hu, x⟩
      · rintro (⟨_, x⟩ | ⟨x, _⟩)
        · exact x
        · exfalso
          rcases hu with e | e <;> rw [e] at x <;> revert x <;> decide
    · rw [if_neg hu]
      by_cases hf : h.creator >>> 8 = 0#16 ∨ h.creator >>> 8 = 11#16 ∨ h.creator >>> 8 = 14#16
      · rw [if_pos hf, zipDosMode_dir]
        exact ⟨fun x => Or.inr ⟨hf, x⟩, fun x => x.elim (fun y => absurd y.1 hu) (·.2)⟩
      · rw [if_neg hf]
        constructor
        · intro x; exact absurd x (by decide)
        · exact fun x => x.elim (fun y => absurd y.1 hu) (fun y => absurd y.1 hf)

/-- a Unix entry "d/", a Unix entry "d" with the mode of a directory, and a Unix file -/
example : (ZHdr.mk "d/".toList 0x300#16 0#32 0 0).isDir = true ∧ (ZHdr.mk "d".toList 0x300#16 0x41ED0000#32 0 0).isDir = true ∧
    (ZHdr.mk "d".toList 0x300#16 0x81ED0000#32 0 0).isDir = false := by decide +kernel

/-- a toy digest and CSV reader for the examples: the digest is the sum of the bytes in decimal -/
def toyDigest (_ : Str) (b : Bytes) : Str := itoa ((b.map (fun x => (x.toNat : Int))).sum)

def sampleRows : List (List Str) :=
  [["m/a.py".toList, "sha256=3".toList, "2".toList], ["x-1.dist-info/WHEEL".toList, "sha512=3".toList, "1".toList],
   ["x-1.dist-info/RECORD".toList, [], []]]

def sampleCsv (b : Bytes) : Option (List (List Str)) := if b = [4] then some sampleRows else none

/-- the sample archive passes; it no longer does after a change of a byte, of the size in RECORD, with a weak hash, or with an
additional file -/
example : integrityCheck toyDigest sampleCsv sampleZip = .ok () ∧
    integrityCheck toyDigest sampleCsv (sampleFile "m/a.py" [2, 2] :: sampleZip.drop 1) = .error () ∧
    integrityCheck toyDigest (fun _ => some (["m/a.py".toList, "sha256=3".toList, "3".toList] :: sampleRows.drop 1)) sampleZip = .error () ∧
    integrityCheck toyDigest (fun _ => some (["m/a.py".toList, "md5=3".toList, "2".toList] :: sampleRows.drop 1)) sampleZip = .error () ∧
    integrityCheck toyDigest sampleCsv (sampleFile "m/b.py" [] :: sampleZip) = .error () := by
  decide +kernel

end Bdist
