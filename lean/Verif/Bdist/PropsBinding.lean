import Verif.Bdist.PropsRecordText
import Verif.Go.PropsEncode
import Verif.Repo.PropsHtml
/-! C126: what is checked by checksum is determined by its checksum, up to collisions of the hash functions. -/
namespace Bdist
open Go Fsutil Python Go.Encode

namespace Spec

/-- the archive has one `.dist-info` directory, `d`, and the text of its RECORD (its first entry, if there are several) is `text` -/
def Record (zip : List ZFile) (d : Str) (text : Bytes) : Prop :=
  TheInfoDir zip d ∧ ∃ record, FirstNamed zip (d ++ "/RECORD".toList) record ∧ record.content = some text

/-- two different contents of one length with the same SHA-256, SHA-384 or SHA-512 sum (`H` computes the sums) -/
def Collide (H : Str → Bytes → Bytes) (c c' : Bytes) : Prop :=
  c ≠ c' ∧ c.length = c'.length ∧ ∃ algo, (algo = "sha256".toList ∨ algo = "sha384".toList ∨ algo = "sha512".toList) ∧ H algo c = H algo c'

end Spec

theorem first_same {zip : List ZFile} {n : Str} {f g : ZFile} (hf : Spec.FirstNamed zip n f) (hg : Spec.FirstNamed zip n g) : f = g := by
  have h1 := (find_first zip n f).mpr hf
  have h2 := (find_first zip n g).mpr hg
  rw [h1] at h2
  exact Option.some.inj h2

theorem infoDir_unique {zip : List ZFile} {d d' : Str} (h : Spec.TheInfoDir zip d) (h' : Spec.TheInfoDir zip d') : d = d' := by
  obtain ⟨h1, ⟨f, hf, rfl⟩, _⟩ := h
  exact h'.2.2 f hf h1

/-- what a check that has passed says when the place and the text of RECORD are known -/
theorem check_record {digest : Str → Bytes → Str} {csv : Bytes → Option (List (List Str))} {zip : List ZFile} {d : Str} {text : Bytes}
    (h : integrityCheck digest csv zip = .ok ()) (hr : Spec.Record zip d text) :
    ∃ rows, csv text = some rows ∧ (∀ row ∈ rows, Spec.TrueRow digest (d ++ "/RECORD".toList) zip row) ∧
      ∀ f ∈ zip, f.hdr.isDir = false → clean f.hdr.name ≠ d ++ "/RECORD.jws".toList →
        clean f.hdr.name ≠ d ++ "/RECORD.p7s".toList → ∃ row ∈ rows, Spec.Names row (clean f.hdr.name) := by
  obtain ⟨d', record, text', rows, h1, h2, h3, h4, h5, h6⟩ := (C41_exact digest csv zip).mp h
  obtain ⟨hd, record', hf, hc⟩ := hr
  cases infoDir_unique h1 hd
  cases first_same h2 hf
  rw [h3] at hc
  cases hc
  exact ⟨rows, h4, h5, h6⟩

theorem algo_split {a b x y : Str} (ha : a = "sha256".toList ∨ a = "sha384".toList ∨ a = "sha512".toList)
    (hb : b = "sha256".toList ∨ b = "sha384".toList ∨ b = "sha512".toList) (h : a ++ "=".toList ++ x = b ++ "=".toList ++ y) : a = b ∧ x = y := by
  rcases ha with rfl | rfl | rfl <;> rcases hb with rfl | rfl | rfl <;> simp_all

/-- **C126**, wheels: if two archives both pass the integrity check, and their `.dist-info` directories have the same name and their RECORDs the
same text, then every file of the one, other than the signatures `RECORD.jws` and `RECORD.p7s`, is in the other, and what one reads from
the two is the same, unless one has found a collision of SHA-256, SHA-384 or SHA-512.  For all hash functions and CSV readers. -/
theorem C126_record (H : Str → Bytes → Bytes) (csv : Bytes → Option (List (List Str))) (zip zip' : List ZFile) (d : Str) (text : Bytes)
    (h : integrityCheck (fun algo c => base64url (H algo c)) csv zip = .ok ()) (hr : Spec.Record zip d text)
    (h' : integrityCheck (fun algo c => base64url (H algo c)) csv zip' = .ok ()) (hr' : Spec.Record zip' d text)
    (f : ZFile) (hf : f ∈ zip) (hdir : f.hdr.isDir = false) (hjws : clean f.hdr.name ≠ d ++ "/RECORD.jws".toList)
    (hp7s : clean f.hdr.name ≠ d ++ "/RECORD.p7s".toList) :
    ∃ g g' c c', Spec.FirstNamed zip (clean f.hdr.name) g ∧ g.content = some c ∧ Spec.FirstNamed zip' (clean f.hdr.name) g' ∧ g'.content = some c' ∧
      (c = c' ∨ Spec.Collide H c c') := by
  obtain ⟨rows, h1, h2, h3⟩ := check_record h hr
  obtain ⟨rows', h1', h2', _⟩ := check_record h' hr'
  rw [h1] at h1'
  cases h1'
  obtain ⟨row, hrow, name, hash, size, e, hn⟩ := h3 f hf hdir hjws hp7s
  obtain ⟨n1, s1, z1, g, c, e1, hg, hc, hh, hz, hp⟩ := h2 row hrow
  obtain ⟨n2, s2, z2, g', c', e2, hg', hc', hh', hz', hp'⟩ := h2' row hrow
  rw [e] at e1 e2
  cases e1; cases e2
  rw [hn] at hg hg' hp
  refine ⟨g, g', c, c', hg, hc, hg', hc', ?_⟩
  rcases hp with ⟨hne, hze⟩ | hrec
  · obtain ⟨a, ha, ea⟩ := hh.resolve_left hne
    obtain ⟨b, hb, eb⟩ := hh'.resolve_left hne
    rw [ea] at eb
    obtain ⟨rfl, ed⟩ := algo_split ha hb eb
    have hH := base64url_inj ed
    have hl : c.length = c'.length := by
      have ez := hz.resolve_left hze
      rw [hz'.resolve_left hze] at ez
      rw [itoa_nonneg (Int.natCast_nonneg _), itoa_nonneg (Int.natCast_nonneg _)] at ez
      have := congrArg digitsVal ez
      rw [digitsVal_itoaNat, digitsVal_itoaNat] at this
      omega
    by_cases hcc : c = c'
    · exact .inl hcc
    · exact .inr ⟨hcc, hl, _, ha, hH⟩
  · left
    obtain ⟨_, r, hr1, hr2⟩ := hr
    obtain ⟨_, r', hr1', hr2'⟩ := hr'
    rw [hrec] at hg hg'
    cases first_same hg hr1
    cases first_same hg' hr1'
    rw [hr2] at hc; rw [hr2'] at hc'
    cases hc; cases hc'
    rfl

/-- no text of a checksum has a line end, a comma or a quote: the condition on checksums of `C118_record_partial` holds -/
theorem C126_plain (H : Str → Bytes → Bytes) (algo : Str) (c : Bytes) :
    '\r' ∉ base64url (H algo c) ∧ '\n' ∉ base64url (H algo c) ∧ ',' ∉ base64url (H algo c) ∧ '"' ∉ base64url (H algo c) ∧ '=' ∉ base64url (H algo c) := by
  refine ⟨?_, ?_, ?_, ?_, ?_⟩ <;> (intro h; exact absurd (base64url_chars _ h) (by decide +kernel))

/-- a toy hash: the sum of the bytes -/
def sumHash (_ : Str) (b : Bytes) : Bytes := [b.sum]

/-- a RECORD for one file, with the toy hash: "Aw" stands for the byte 3 -/
def boundRows : List (List Str) :=
  [["m/a.py".toList, "sha256=Aw".toList, "2".toList], ["m-1.dist-info/RECORD".toList, [], []]]

def boundCsv (b : Bytes) : Option (List (List Str)) := if b = [4] then some boundRows else none

def boundZip (c : Bytes) : List ZFile := [sampleFile "m/a.py" c, sampleFile "m-1.dist-info/RECORD" [4]]

/-- two archives that meet the conditions: with a weak hash there is a collision, and the contents differ -/
example : integrityCheck (fun algo c => base64url (sumHash algo c)) boundCsv (boundZip [1, 2]) = .ok () ∧
    integrityCheck (fun algo c => base64url (sumHash algo c)) boundCsv (boundZip [2, 1]) = .ok () ∧
    integrityCheck (fun algo c => base64url (sumHash algo c)) boundCsv (boundZip [2, 2]) = .error () ∧
    Spec.Record (boundZip [1, 2]) "m-1.dist-info".toList [4] ∧ Spec.Record (boundZip [2, 1]) "m-1.dist-info".toList [4] := by
  have hr : ∀ c, Spec.Record (boundZip c) "m-1.dist-info".toList [4] := by
    intro c
    refine ⟨(C50_dist_info _ _).mp ?_, sampleFile "m-1.dist-info/RECORD" [4], ?_, rfl⟩
    · rfl
    · exact ⟨[sampleFile "m/a.py" c], [], rfl, by decide +kernel, by
        intro g hg
        cases List.mem_singleton.mp hg
        show clean "m/a.py".toList ≠ _
        decide +kernel⟩
  exact ⟨by decide +kernel, by decide +kernel, by decide +kernel, hr _, hr _⟩

end Bdist

namespace Repo
open Go Go.Encode

/-- **C126**, downloads: if two servers, or one server at two times, answer the request for a URL whose fragment promises a checksum, and
both downloads succeed, then they give the same bytes, unless one has found a collision of that hash function.  As in C38, the parts of
the fragment must be decodable. -/
theorem C126_download {doReq doReq' : Str → Option Response} {fragment unescape : Str → Option Str} (H : Str → List UInt8 → List UInt8)
    {order order' : List (Str × Str) → List (Str × Str)} {url frag k v : Str} (horder : ∀ l, (order l).Perm l) (horder' : ∀ l, (order' l).Perm l)
    (hfrag : fragment url = some frag) (hdec : ∀ p ∈ split '&' frag, p = [] ∨ ∃ k v, Decodes unescape p k v) (hp : Promises unescape frag k v)
    {body body' : List UInt8}
    (h : get doReq fragment unescape (fun algo c => hex (H algo c)) order url = .ok body)
    (h' : get doReq' fragment unescape (fun algo c => hex (H algo c)) order' url = .ok body') :
    body = body' ∨ body ≠ body' ∧ H k body = H k body' := by
  obtain ⟨r, h1, h2, rfl⟩ := (C38_checksums_partial horder).1 body h
  obtain ⟨r', h1', h2', rfl⟩ := (C38_checksums_partial horder').1 body' h'
  have e := ((C38_checksums_partial horder).2 frag r hfrag hdec h1 h2).mp h k v hp
  have e' := ((C38_checksums_partial horder').2 frag r' hfrag hdec h1' h2').mp h' k v hp
  have hH : H k r.body = H k r'.body := hex_inj (by rw [e, e'])
  by_cases hb : r.body = r'.body
  · exact .inl hb
  · exact .inr ⟨hb, hH⟩

/-- both downloads succeed, and the fragment promises a checksum: the hash of the toy server is the length -/
example : Promises some "sha256=02&egg=x".toList "sha256".toList "02".toList ∧
    (∀ p ∈ split '&' "sha256=02&egg=x".toList, p = [] ∨ ∃ k v, Decodes some p k v) ∧
    get (fun _ => some ⟨200, [1, 2]⟩) (fun _ => some "sha256=02&egg=x".toList) some (fun _ c => hex [UInt8.ofNat c.length]) id [] = .ok [1, 2] ∧
    get (fun _ => some ⟨200, [3, 4]⟩) (fun _ => some "sha256=02&egg=x".toList) some (fun _ c => hex [UInt8.ofNat c.length]) id [] = .ok [3, 4] ∧
    get (fun _ => some ⟨200, [3]⟩) (fun _ => some "sha256=02&egg=x".toList) some (fun _ c => hex [UInt8.ofNat c.length]) id [] = .error () := by
  refine ⟨⟨by decide, "sha256=02".toList, by decide, by decide, "sha256".toList, "02".toList, Or.inl (by decide), by decide, by decide, by decide⟩,
    ?_, rfl, rfl, rfl⟩
  intro p hp
  have : p = "sha256=02".toList ∨ p = "egg=x".toList := by
    have e : split '&' "sha256=02&egg=x".toList = ["sha256=02".toList, "egg=x".toList] := by decide
    rw [e] at hp; simpa using hp
  right
  rcases this with rfl | rfl
  · exact ⟨_, _, by decide, "sha256".toList, "02".toList, Or.inl (by decide), by decide, rfl, rfl⟩
  · exact ⟨_, _, by decide, "egg".toList, "x".toList, Or.inl (by decide), by decide, rfl, rfl⟩

end Repo
