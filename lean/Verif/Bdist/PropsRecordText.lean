import Verif.Bdist.PropsCommand
import Verif.Go.PropsCsv
import Verif.Go.PropsCsvExact
import Verif.Go.Lemmas
/-!
C118: RECORD as a text.  The CSV reader and writer, parameters elsewhere, are here the ones of `Verif/Go/Csv.lean`; `decode` turns
bytes into text, and is only assumed to undo `enc` (UTF-8).
-/
namespace Bdist
open Go Fsutil Python Go.Csv Go.Csv.Spec

/-- binary_distribution_format.go:844 `csv.NewReader(reader).ReadAll()` on the content of a file -/
def csvOf (decode : Bytes → Str) (b : Bytes) : Option (List (List Str)) := (readAll (decode b)).toOption

/-- recording_installs.go:123-132: what `csv.Writer` puts into the buffer -/
def csvBytes (rows : List (List Str)) : Bytes := enc (writeAll rows)

theorem join_mem {c : Char} {l : List Str} (h : c ∈ join ['/'] l) : c = '/' ∨ ∃ x ∈ l, c ∈ x := by
  induction l with
  | nil => simp [join] at h
  | cons a l ih =>
    cases l with
    | nil => exact Or.inr ⟨a, by simp, by simpa [join] using h⟩
    | cons b l =>
      simp only [join, List.mem_append] at h
      rcases h with (h | h) | h
      · exact Or.inr ⟨a, by simp, h⟩
      · exact Or.inl (by simpa using h)
      · rcases ih h with e | ⟨x, hx, hc⟩
        · exact Or.inl e
        · exact Or.inr ⟨x, by simp [hx], hc⟩

theorem mem_join {c : Char} {l : List Str} {x : Str} (hx : x ∈ l) (hc : c ∈ x) : c ∈ join ['/'] l := by
  induction l with
  | nil => cases hx
  | cons a l ih =>
    cases l with
    | nil => simp only [List.mem_singleton] at hx; subst hx; simpa [join] using hc
    | cons b l =>
      simp only [join, List.mem_append]
      rcases List.mem_cons.mp hx with rfl | hx
      · exact Or.inl (Or.inl hc)
      · exact Or.inr (ih hx)

/-- a path relative to a directory has no characters that the path does not have, except `.` and `/` -/
theorem leads_mem {base n name : Str} (h : Spec.Leads base n name) {c : Char} (hc : c ∈ name) : c = '.' ∨ c = '/' ∨ c ∈ n := by
  obtain ⟨common, up, down, _, _, hn, _, rfl⟩ := h
  unfold render at hc
  simp only [Bool.false_eq_true, if_false] at hc
  split at hc
  · left; simpa using hc
  · rcases join_mem hc with rfl | ⟨x, hx, hcx⟩
    · exact Or.inr (Or.inl rfl)
    · rcases List.mem_append.mp hx with hx | hx
      · have := List.eq_of_mem_replicate hx
        subst this
        left
        simpa using hcx
      · right; right
        rw [hn]
        unfold render
        simp only [Bool.false_eq_true, if_false]
        rw [if_neg (by intro e; simp only [List.append_eq_nil_iff] at e; rw [e.2] at hx; cases hx)]
        exact mem_join (List.mem_append_right _ hx) hcx

theorem layerRow_three {digest : Str → Bytes → Str} {plat : Platform} {base record : Str} {e : Hdr × Bytes} {row : List Str}
    (h : Spec.LayerRow digest plat base record e row) : row.length = 3 := by
  obtain ⟨_, _, _, rfl, _⟩ := h
  rfl

theorem layerRow_chars {digest : Str → Bytes → Str} {plat : Platform} {base record : Str} {e : Hdr × Bytes} {row : List Str}
    (h : Spec.LayerRow digest plat base record e row) {c : Char} (hn : c ∉ e.1.name) (hd : ∀ b, c ∉ digest "sha256".toList b)
    (h1 : c ∉ "./sha256=".toList) (h2 : isDig c = false) : ∀ f ∈ row, c ∉ f := by
  obtain ⟨name, hash, size, rfl, hl, hcase⟩ := h
  have hname : c ∉ name := by
    intro hc
    rcases leads_mem hl hc with rfl | rfl | hc
    · exact h1 (by decide)
    · exact h1 (by decide)
    · exact hn hc
  intro f hf
  simp only [List.mem_cons, List.not_mem_nil, or_false] at hf
  rcases hcase with ⟨_, rfl, rfl⟩ | ⟨_, old, rfl, rfl, _⟩
  · rcases hf with rfl | rfl | rfl
    · exact hname
    · simp
    · simp
  · rcases hf with rfl | rfl | rfl
    · exact hname
    · intro hc
      rcases List.mem_append.mp hc with hc | hc
      · exact h1 (List.mem_of_mem_drop (i := 2) hc)
      · exact hd _ hc
    · intro hc
      rw [itoa_nonneg (by omega)] at hc
      have := List.all_eq_true.mp (itoaNat_all _) _ hc
      rw [h2] at this; cases this

/-- **C118** (partial): in the layer of an ordinary wheel, in which no name has a carriage return, RECORD reads back, as CSV, as rows
of which each tells path, checksum and size of an entry of the layer, and every entry but the directories has one; if no name has a
line feed either, the text stands for these rows also by RFC 4180. -/
theorem C118_record_partial (w : World) (hsort : SortSlice w.sortSlice) (env : HookEnv) (hrows : SortSlice env.sortRows) (hdigest : env.digest = w.digest)
    (hcsv : env.csvWrite = csvBytes) (decode : Bytes → Str) (hdec : ∀ s, decode (enc s) = s)
    (hhex : ∀ b, '\r' ∉ w.digest "sha256".toList b ∧ '\n' ∉ w.digest "sha256".toList b)
    (plat : Platform) (zip : List ZFile) (ho : Spec.Ordinary w env plat zip) (layer : List (Hdr × Bytes)) (h : CommandRun w env plat zip (.ok layer))
    (hcr : ∀ e ∈ layer, '\r' ∉ e.1.name) :
    ∃ base info text rows q, Spec.TheInfoDir zip info ∧ ('/' :: base = plat.scheme.pureLib ∨ '/' :: base = plat.scheme.platLib) ∧
      plat.init = .ok q ∧
      (∃ e ∈ layer, e.1.name = base ++ "/".toList ++ info ++ "/RECORD".toList ∧ e.1.typeflag = '0' ∧ e.2 = enc text) ∧
      csvOf decode (enc text) = some rows ∧
      ((∀ e ∈ layer, '\n' ∉ e.1.name) → FileText text rows) ∧
      (∀ e ∈ layer, e.1.typeflag ≠ '5' →
        ∃ row ∈ rows, Spec.LayerRow w.digest q base (base ++ "/".toList ++ info ++ "/RECORD".toList) e row) ∧
      ∀ row ∈ rows, ∃ e ∈ layer, e.1.typeflag ≠ '5' ∧
        Spec.LayerRow w.digest q base (base ++ "/".toList ++ info ++ "/RECORD".toList) e row := by
  obtain ⟨base, info, rows, r1, r2, ⟨er, her, r3, r4, r5⟩, _, r6, r7⟩ :=
    C91_record_partial w hsort env hrows hdigest plat zip ho layer h
  obtain ⟨q, hq⟩ : ∃ q, plat.init = .ok q := by
    obtain ⟨row, _, q, hq, _⟩ := r6 er her (by rw [r4]; decide)
    exact ⟨q, hq⟩
  have hqq : ∀ q', plat.init = .ok q' → q' = q := by intro q' h; rw [hq] at h; cases h; rfl
  have three : ∀ r ∈ rows, r.length = 3 := by
    intro r hr
    obtain ⟨e, _, _, q', _, hrow⟩ := r7 r hr
    exact layerRow_three hrow
  have nocr : ∀ r ∈ rows, ∀ f ∈ r, '\r' ∉ f := by
    intro r hr
    obtain ⟨e, he, _, q', _, hrow⟩ := r7 r hr
    exact layerRow_chars hrow (hcr e he) (fun b => (hhex b).1) (by decide) (by decide)
  refine ⟨base, info, writeAll rows, rows, q, r1, r2, hq, ⟨er, her, r3, r4, by rw [r5, hcsv]; rfl⟩, ?_, ?_, ?_, ?_⟩
  · unfold csvOf
    rw [hdec, C118_round_trip_partial (k := 3) (by omega) three nocr]
    rfl
  · intro hlf
    have e := C118_write (rows := rows) (by intro r hr e; have := three r hr; rw [e] at this; cases this)
    have : rows.map (List.map crlf) = rows := by
      refine (List.map_congr_left (g := id) ?_).trans (List.map_id _)
      intro r hr
      refine (List.map_congr_left (g := id) ?_).trans (List.map_id _)
      intro f hf
      obtain ⟨e, he, _, q', _, hrow⟩ := r7 r hr
      have h1 := nocr r hr f hf
      have h2 := layerRow_chars hrow (hlf e he) (fun b => (hhex b).2) (by decide) (by decide) f hf
      show crlf f = f
      clear hf
      induction f with
      | nil => rfl
      | cons c f ih =>
        have c1 : c ≠ '\r' := by rintro rfl; simp at h1
        have c2 : c ≠ '\n' := by rintro rfl; simp at h2
        have ih := ih (fun hm => h1 (by simp [hm])) (fun hm => h2 (by simp [hm]))
        unfold crlf at ih ⊢
        rw [List.flatMap_cons, if_neg c1, if_neg c2, ih]
        rfl
    rwa [this] at e
  · intro e he hty
    obtain ⟨row, hrow, q', hq', hr⟩ := r6 e he hty
    exact ⟨row, hrow, hqq q' hq' ▸ hr⟩
  · intro row hrow
    obtain ⟨e, he, hty, q', hq', hr⟩ := r7 row hrow
    exact ⟨e, he, hty, hqq q' hq' ▸ hr⟩

/-- **C118**, the check exactly, for every wheel and whatever the text of its RECORD: it succeeds if and only if that text consists of
empty lines and records, as `Go/CsvSpec.lean` says, all of the same length, each row is true of the wheel, and every file is named. -/
theorem C118_check_exact (digest : Str → Bytes → Str) (decode : Bytes → Str) (zip : List ZFile) :
    integrityCheck digest (csvOf decode) zip = .ok () ↔
      ∃ d record text rows, Spec.TheInfoDir zip d ∧ Spec.FirstNamed zip (d ++ "/RECORD".toList) record ∧
        record.content = some text ∧ LooseFile (unix (decode text)) rows ∧ (∃ k, ∀ row ∈ rows, row.length = k) ∧
        (∀ row ∈ rows, Spec.TrueRow digest (d ++ "/RECORD".toList) zip row) ∧
        ∀ f ∈ zip, f.hdr.isDir = false → clean f.hdr.name ≠ d ++ "/RECORD.jws".toList →
          clean f.hdr.name ≠ d ++ "/RECORD.p7s".toList → ∃ row ∈ rows, Spec.Names row (clean f.hdr.name) := by
  have key : ∀ text rows, csvOf decode text = some rows ↔ LooseFile (unix (decode text)) rows ∧ ∃ k, ∀ row ∈ rows, row.length = k := by
    intro text rows
    rw [← C118_exact]
    unfold csvOf
    cases readAll (decode text) <;> simp [Except.toOption]
  rw [C41_exact]
  constructor
  · rintro ⟨d, record, text, rows, h1, h2, h3, h4, h5, h6⟩
    obtain ⟨a, b⟩ := (key _ _).mp h4
    exact ⟨d, record, text, rows, h1, h2, h3, a, b, h5, h6⟩
  · rintro ⟨d, record, text, rows, h1, h2, h3, a, b, h5, h6⟩
    exact ⟨d, record, text, rows, h1, h2, h3, (key _ _).mpr ⟨a, b⟩, h5, h6⟩

/-- **C118**: if the text of the wheel's RECORD stands, by RFC 4180, for rows of three fields without carriage returns, then these
rows are what the integrity check goes by. -/
theorem C118_checked (digest : Str → Bytes → Str) (decode : Bytes → Str) (zip : List ZFile) {d : Str} {record : ZFile} {text : Bytes}
    {rows : List (List Str)} (hd : Spec.TheInfoDir zip d) (hrec : Spec.FirstNamed zip (d ++ "/RECORD".toList) record)
    (htext : record.content = some text) (hrows : FileText (decode text) rows) (h3 : ∀ row ∈ rows, row.length = 3)
    (hcr : ∀ row ∈ rows, ∀ f ∈ row, '\r' ∉ f) :
    integrityCheck digest (csvOf decode) zip = .ok () ↔
      (∀ row ∈ rows, Spec.TrueRow digest (d ++ "/RECORD".toList) zip row) ∧
      ∀ f ∈ zip, f.hdr.isDir = false → clean f.hdr.name ≠ d ++ "/RECORD.jws".toList →
        clean f.hdr.name ≠ d ++ "/RECORD.p7s".toList → ∃ row ∈ rows, Spec.Names row (clean f.hdr.name) := by
  have hread : csvOf decode text = some rows := by
    unfold csvOf
    rw [C118_read hrows (k := 3) (by omega) h3]
    simp only [Except.toOption, Option.some.injEq]
    refine (List.map_congr_left (g := id) ?_).trans (List.map_id _)
    intro r hr
    refine (List.map_congr_left (g := id) ?_).trans (List.map_id _)
    intro f hf
    have hc := hcr r hr f hf
    show norm f = f
    clear hf
    induction f with
    | nil => rfl
    | cons c f ih =>
      rw [norm, ih (fun hm => hc (by simp [hm]))]
      intro s h _
      subst h
      simp at hc
  rw [C41_exact]
  constructor
  · rintro ⟨d', record', text', rows', hd', hrec', htext', hcsv', h1, h2⟩
    have : d' = d := by
      obtain ⟨hi, ⟨f, hf, rfl⟩, _⟩ := hd'
      exact hd.2.2 f hf hi
    subst this
    have : record' = record := by
      rw [← find_first] at hrec hrec'
      rw [hrec] at hrec'
      cases hrec'; rfl
    subst this
    rw [htext] at htext'; cases htext'
    rw [hread] at hcsv'; cases hcsv'
    exact ⟨h1, h2⟩
  · rintro ⟨h1, h2⟩
    exact ⟨d, record, text, rows, hd, hrec, htext, hread, h1, h2⟩

/-! ### Samples -/

/-- UTF-8 -/
def utf8Text (b : Bytes) : Str := ((b.toByteArray.utf8Decode?).map Array.toList).getD []

theorem utf8Text_enc (s : Str) : utf8Text (enc s) = s := by
  unfold utf8Text enc
  rw [show (s.flatMap String.utf8EncodeChar).toByteArray = s.utf8Encode from rfl, List.utf8Decode?_utf8Encode]
  rfl

/-- the toy outside world with Go's CSV writer -/
def csvHookEnv : HookEnv := { toyHookEnv with csvWrite := csvBytes }

theorem toyDigest_digits {b : Bytes} {c : Char} (h : c ∈ toyDigest "sha256".toList b) : isDig c = true := by
  have hn : ∀ l : Bytes, (0 : Int) ≤ (l.map (fun x => (x.toNat : Int))).sum := by
    intro l
    induction l with
    | nil => simp
    | cons a l ih => rw [List.map_cons, List.sum_cons]; omega
  unfold toyDigest at h
  rw [itoa_nonneg (hn b)] at h
  exact List.all_eq_true.mp (itoaNat_all _) _ h

/-- the command makes a layer from the sample wheel with two entry points, and the conditions of `C118_record_partial` hold -/
example : SortSlice cmdWorld.sortSlice ∧ SortSlice csvHookEnv.sortRows ∧ csvHookEnv.digest = cmdWorld.digest ∧ csvHookEnv.csvWrite = csvBytes ∧
    (∀ s, utf8Text (enc s) = s) ∧ (∀ b, '\r' ∉ cmdWorld.digest "sha256".toList b ∧ '\n' ∉ cmdWorld.digest "sha256".toList b) ∧
    Spec.Ordinary cmdWorld csvHookEnv toyPlat cmdZip ∧
    ∃ layer, CommandRun cmdWorld csvHookEnv toyPlat cmdZip (.ok layer) ∧ layer.map (·.1.name) = cmdNames ∧
      ∀ e ∈ layer, '\r' ∉ e.1.name ∧ '\n' ∉ e.1.name := by
  refine ⟨sortSlice_exists, sortSlice_exists, rfl, rfl, utf8Text_enc, ?_, ⟨toy_clean, cmd_compiler, cmd_down, cmd_apart, cmd_fits⟩, ?_⟩
  · intro b
    constructor <;> (intro hc; have h := toyDigest_digits hc; revert h; decide)
  · have hn : ((outline (installOnce (fun l => l.headD []) cmdWorld toyPlat none none (commandHook csvHookEnv true id id toyPlat) cmdZip) |>
        fun | .ok l => l.map (·.1) | _ => []) = cmdNames) := by decide +kernel
    have hr := installOnce_run chooses_head cmdWorld toyPlat none none (commandHook csvHookEnv true id id toyPlat) cmdZip
    cases hi : installOnce (fun l => l.headD []) cmdWorld toyPlat none none (commandHook csvHookEnv true id id toyPlat) cmdZip with
    | ok layer =>
      rw [hi] at hn hr
      have hl : layer.map (·.1.name) = cmdNames := by rw [← hn]; simp [outline]
      refine ⟨layer, ⟨true, id, id, fun _ => List.Perm.refl _, fun _ => List.Perm.refl _, hr⟩, hl, ?_⟩
      intro e he
      have hm : e.1.name ∈ cmdNames := by rw [← hl]; exact List.mem_map_of_mem he
      have : ∀ n ∈ cmdNames, '\r' ∉ n ∧ '\n' ∉ n := by decide +kernel
      exact this _ hm
    | error => rw [hi] at hn; exact absurd hn (by decide)
    | panic => rw [hi] at hn; exact absurd hn (by decide)
    | hangs => rw [hi] at hn; exact absurd hn (by decide)

/-- an archive whose RECORD has quotes and line feeds -/
def textRecord : ZFile := sampleFile "x-1.dist-info/RECORD" (enc "\"m/a.py\",sha256=3,2\nx-1.dist-info/RECORD,,".toList)

/-- the conditions of `C118_checked`; the archive passes -/
example : ∃ rows, FileText (utf8Text (enc "\"m/a.py\",sha256=3,2\nx-1.dist-info/RECORD,,".toList)) rows ∧ (∀ row ∈ rows, row.length = 3) ∧
    (∀ row ∈ rows, ∀ f ∈ row, '\r' ∉ f) ∧ Spec.TheInfoDir [sampleFile "m/a.py" [1, 2], textRecord] "x-1.dist-info".toList ∧
    Spec.FirstNamed [sampleFile "m/a.py" [1, 2], textRecord] ("x-1.dist-info".toList ++ "/RECORD".toList) textRecord ∧
    integrityCheck toyDigest (csvOf utf8Text) [sampleFile "m/a.py" [1, 2], textRecord] = .ok () := by
  refine ⟨[["m/a.py".toList, "sha256=3".toList, "2".toList], ["x-1.dist-info/RECORD".toList, [], []]], ?_, by decide, by decide +kernel, ?_, ?_, ?_⟩
  · rw [utf8Text_enc]
    have plain : ∀ {f : Str}, (∀ c ∈ f, c ∉ [',', '"', '\r', '\n']) → FieldText f f := fun h => Or.inl ⟨rfl, h⟩
    have h1 : RecordText "\"m/a.py\",sha256=3,2".toList ["m/a.py".toList, "sha256=3".toList, "2".toList] :=
      .more (w := "\"m/a.py\"".toList) (Or.inr rfl) (.more (w := "sha256=3".toList) (plain (by decide)) (.one (plain (by decide))))
    have h2 : RecordText "x-1.dist-info/RECORD,,".toList ["x-1.dist-info/RECORD".toList, [], []] :=
      .more (w := "x-1.dist-info/RECORD".toList) (plain (by decide)) (.more (w := []) (plain (by decide)) (.one (plain (by decide))))
    exact .more h1 (Or.inr rfl) (.last h2)
  · refine ⟨?_, ⟨textRecord, by simp, by decide +kernel⟩, ?_⟩
    · exact ⟨"x-1".toList, by decide⟩
    · intro f hf
      simp only [List.mem_cons, List.not_mem_nil, or_false] at hf
      rcases hf with rfl | rfl
      · rintro ⟨x, hx⟩
        have : Spec.top (sampleFile "m/a.py" [1, 2]) = "m".toList := by decide +kernel
        rw [this] at hx
        have := congrArg List.length hx
        simp at this
      · intro _; decide +kernel
  · exact ⟨[sampleFile "m/a.py" [1, 2]], [], rfl, by decide +kernel, by decide +kernel⟩
  · have : (readAll "\"m/a.py\",sha256=3,2\nx-1.dist-info/RECORD,,".toList).toOption =
        some [["m/a.py".toList, "sha256=3".toList, "2".toList], ["x-1.dist-info/RECORD".toList, [], []]] := by decide +kernel
    have he : csvOf utf8Text (enc "\"m/a.py\",sha256=3,2\nx-1.dist-info/RECORD,,".toList) =
        some [["m/a.py".toList, "sha256=3".toList, "2".toList], ["x-1.dist-info/RECORD".toList, [], []]] := by
      unfold csvOf; rw [utf8Text_enc]; exact this
    have h1 : distInfoDir [sampleFile "m/a.py" [1, 2], textRecord] = .ok "x-1.dist-info".toList := by decide +kernel
    have h2 : openWheel [sampleFile "m/a.py" [1, 2], textRecord] (pathJoin ["x-1.dist-info".toList, "RECORD".toList]) =
        some (enc "\"m/a.py\",sha256=3,2\nx-1.dist-info/RECORD,,".toList) := by decide +kernel
    unfold integrityCheck
    rw [h1]
    simp only
    rw [h2]
    simp only
    rw [he]
    decide +kernel

/-! ### Counterexamples -/

/-- a wheel with a file whose name has a carriage return -/
def crZip : List ZFile := sampleFile "m/a\rb.py" [1] :: toyZip

/-- what its RECORD says -/
def crText : Str :=
  "../../bin/run,sha256=752,9\r\n../../d/e/f,sha256=7,1\r\n\"m/ab.py\",sha256=1,1\r\nm/a.py,sha256=3,2\r\nx.dist-info/INSTALLER,sha256=1991,21\r\nx.dist-info/RECORD,,\r\nx.dist-info/WHEEL,sha256=3,1\r\n".toList

/-- the rows in it -/
def crRows : List (List Str) :=
  [["../../bin/run".toList, "sha256=752".toList, "9".toList], ["../../d/e/f".toList, "sha256=7".toList, "1".toList],
   ["m/ab.py".toList, "sha256=1".toList, "1".toList], ["m/a.py".toList, "sha256=3".toList, "2".toList],
   ["x.dist-info/INSTALLER".toList, "sha256=1991".toList, "21".toList], ["x.dist-info/RECORD".toList, [], []],
   ["x.dist-info/WHEEL".toList, "sha256=3".toList, "1".toList]]

/-- names, types and contents of its layer -/
def crLayer : List (Str × Char × Int × Bytes) :=
  match outline (installOnce (fun l => l.headD []) (toyWorld crZip) toyPlat none none (commandHook csvHookEnv true id id toyPlat) crZip) with
  | .ok l => l
  | _ => []

theorem crLayer_eq : ∃ layer, CommandRun (toyWorld crZip) csvHookEnv toyPlat crZip (.ok layer) ∧
    layer.map (fun e => (e.1.name, e.1.typeflag, e.1.mode, e.2)) = crLayer := by
  have hn : crLayer ≠ [] := by decide +kernel
  have hr := installOnce_run chooses_head (toyWorld crZip) toyPlat none none (commandHook csvHookEnv true id id toyPlat) crZip
  unfold crLayer at hn ⊢
  cases hi : installOnce (fun l => l.headD []) (toyWorld crZip) toyPlat none none (commandHook csvHookEnv true id id toyPlat) crZip with
  | ok layer =>
    rw [hi] at hr
    exact ⟨layer, ⟨true, id, id, fun _ => List.Perm.refl _, fun _ => List.Perm.refl _, hr⟩, rfl⟩
  | error => rw [hi] at hn; exact absurd rfl hn
  | panic => rw [hi] at hn; exact absurd rfl hn
  | hangs => rw [hi] at hn; exact absurd rfl hn

/-- **C118** fails for a name with a carriage return: the layer has `m/a\rb.py`, and RECORD names `m/ab.py`, which the layer does not
have. -/
theorem C118_violated_record : ∃ w plat zip layer text rows, CommandRun w csvHookEnv plat zip (.ok layer) ∧
    (∃ e ∈ layer, e.1.name = "l/pure/x.dist-info/RECORD".toList ∧ e.2 = enc text) ∧ csvOf utf8Text (enc text) = some rows ∧
    (∃ e ∈ layer, e.1.name = "l/pure/m/a\rb.py".toList ∧ e.1.typeflag = typeReg) ∧ (∀ row ∈ rows, row.head? ≠ some "m/a\rb.py".toList) ∧
    (∃ row ∈ rows, row.head? = some "m/ab.py".toList) ∧ (∀ e ∈ layer, e.1.name ≠ "l/pure/m/ab.py".toList) ∧ SortSlice w.sortSlice ∧
    SortSlice csvHookEnv.sortRows ∧ Spec.CleanScheme plat.scheme ∧ Spec.ByteCompiler w.toEnv plat.scheme ∧ ∀ f ∈ zip, Spec.Down f.hdr.name := by
  obtain ⟨layer, hrun, hl⟩ := crLayer_eq
  have back : ∀ x ∈ crLayer, ∃ e ∈ layer, (e.1.name, e.1.typeflag, e.1.mode, e.2) = x := by
    intro x hx
    rw [← hl] at hx
    exact List.mem_map.mp hx
  refine ⟨_, _, _, layer, crText, crRows, hrun, ?_, ?_, ?_, by decide +kernel, by decide +kernel, ?_, sortSlice_exists, sortSlice_exists, toy_clean,
    toy_bytes _, ?_⟩
  · have : ∃ x ∈ crLayer, x.1 = "l/pure/x.dist-info/RECORD".toList ∧ x.2.2.2 = enc crText := by decide +kernel
    obtain ⟨x, hx, h1, h2⟩ := this
    obtain ⟨e, he, rfl⟩ := back x hx
    exact ⟨e, he, h1, h2⟩
  · unfold csvOf
    rw [utf8Text_enc]
    have : (readAll crText).toOption = some crRows := by decide +kernel
    exact this
  · have : ∃ x ∈ crLayer, x.1 = "l/pure/m/a\rb.py".toList ∧ x.2.1 = typeReg := by decide +kernel
    obtain ⟨x, hx, h1, h2⟩ := this
    obtain ⟨e, he, rfl⟩ := back x hx
    exact ⟨e, he, h1, h2⟩
  · intro e he hn
    have : ∀ x ∈ crLayer, x.1 ≠ "l/pure/m/ab.py".toList := by decide +kernel
    exact this (e.1.name, e.1.typeflag, e.1.mode, e.2) (by rw [← hl]; exact List.mem_map_of_mem (f := fun e : Hdr × Bytes => (e.1.name, e.1.typeflag, e.1.mode, e.2)) he) hn
  · intro f hf
    rw [down_iff]
    have : ∀ f ∈ crZip, "..".toList ∉ cleanElems false (split '/' f.hdr.name) := by decide +kernel
    exact this f hf

end Bdist
