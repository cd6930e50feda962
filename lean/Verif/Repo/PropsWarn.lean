import Verif.Repo.Warn
import Verif.Repo.PropsGetwheel
import Verif.Pep440.PropsExact
/-! C149: which pages of an index are used with a warning. -/
namespace Repo
open Go

namespace Spec

/-- the page declares version `n`.`m` of the repository API, maybe with further numbers (a missing second number is 0): PEP 629 -/
def DeclaresVersion (doc : Node) (n m : Int) (v : Pep440.Ver) : Prop :=
  Pep440.parseVersion (pageVersion doc) = .ok v ∧ v.release[0]? = some n ∧ v.release[1]?.getD 0 = m

/-- a warning that names the version `v` by a text that is read as `v` (whose local label, if it has one, has no negative numbers) -/
def Names (v : Pep440.Ver) (msg : Str) : Prop :=
  ∃ t, msg = "server's pypi:repository version (".toList ++ t ++ ") is newer than this client".toList ∧ v.string = some t ∧
    ((∀ n, Pep440.Seg.int n ∈ v.loc → 0 ≤ n) → Pep440.parseVersion t = .ok v)

end Spec

theorem log_result (doc : Node) : (versionCheckLog doc).2 = htmlVersionCheck doc := by
  unfold versionCheckLog htmlVersionCheck
  cases getVersion doc with
  | error e => rfl
  | ok v =>
    simp only
    split
    · rfl
    · split <;> rfl

theorem names_message {s : Str} {v : Pep440.Ver} (h : Pep440.parseVersion s = .ok v) : Spec.Names v (newerMessage v) := by
  obtain ⟨t, ht⟩ : ∃ t, v.string = some t := by
    have := Pep440.C04_exact h
    by_cases hn : ∀ n, Pep440.Seg.int n ∈ v.loc → 0 ≤ n
    · obtain ⟨t, ht, _⟩ := this.1.mpr hn; exact ⟨t, ht⟩
    · simp only [Classical.not_forall, Int.not_le] at hn
      obtain ⟨n, h1, h2⟩ := hn
      obtain ⟨t, ht, _⟩ := this.2.mpr ⟨n, h1, h2⟩
      exact ⟨t, ht⟩
  refine ⟨t, by unfold newerMessage; rw [ht]; rfl, ht, fun hn => ?_⟩
  obtain ⟨t', ht', hp⟩ := Pep440.C04_parse_print_parse_partial h hn
  rw [ht] at ht'; cases ht'; exact hp

theorem major_of {v : Pep440.Ver} {n : Int} (h : v.release[0]? = some n) : v.toPubVer.major = n := by
  cases hr : v.release with
  | nil => rw [hr] at h; cases h
  | cons a l => rw [hr] at h; simp at h; simp [Pep440.PubVer.major, Pep440.PubVer.releaseSegment, hr, h]

theorem minor_of {v : Pep440.Ver} : v.toPubVer.minor = v.release[1]?.getD 0 := by
  cases hr : v.release with
  | nil => simp [Pep440.PubVer.minor, Pep440.PubVer.releaseSegment, hr]
  | cons a l => cases l <;> simp [Pep440.PubVer.minor, Pep440.PubVer.releaseSegment, hr]

/-- **C149**, exactly: of a page that declares version `n`.`m`: with `n` above 1 it is refused, without a warning; with `n` up to 1 it is
used, with one warning that names the version if `m` is above 0, and with none otherwise. -/
theorem C149_exact {doc : Node} (hm : MetaLeaves doc) {n m : Int} {v : Pep440.Ver} (h : Spec.DeclaresVersion doc n m v) :
    (1 < n → versionCheckLog doc = ([], .error ())) ∧
    (n ≤ 1 → 0 < m → ∃ msg, versionCheckLog doc = ([msg], .ok ()) ∧ Spec.Names v msg) ∧
    (n ≤ 1 → m ≤ 0 → versionCheckLog doc = ([], .ok ())) := by
  obtain ⟨hp, h0, h1⟩ := h
  have e : versionCheckLog doc = if n > 1 then ([], .error ()) else if m > 0 then ([newerMessage v], .ok ()) else ([], .ok ()) := by
    unfold versionCheckLog
    rw [getVersion_eq hm, hp]
    simp only [major_of h0, minor_of, h1]
  rw [e]
  refine ⟨fun h => if_pos h, fun a b => ⟨newerMessage v, ?_, names_message hp⟩, fun a b => ?_⟩
  · rw [if_neg (by omega), if_pos b]
  · rw [if_neg (by omega), if_neg (by omega)]

/-- **C149**: a page of which the version cannot be read is refused without a warning, and every version that can be read has a first
number. -/
theorem C149_unreadable {doc : Node} (hm : MetaLeaves doc) :
    (Pep440.parseVersion (pageVersion doc) = .error () → versionCheckLog doc = ([], .error ())) ∧
    (Pep440.parseVersion (pageVersion doc) = .error () ∨ ∃ n m v, Spec.DeclaresVersion doc n m v) := by
  constructor
  · intro h
    unfold versionCheckLog
    rw [getVersion_eq hm, h]
  · cases hp : Pep440.parseVersion (pageVersion doc) with
    | error e => exact .inl rfl
    | ok v =>
      right
      have hne := (Pep440.parsed_shape hp).release
      cases hr : v.release with
      | nil => exact absurd hr hne
      | cons a l => exact ⟨a, _, v, hp, by simp [hr], rfl⟩

/-- **C149** (partial): of a page that declares a version from 1.0 on, there is a warning exactly if the version is above 1.0 and the page is
used.  Missing: versions below 1.0, see `C149_violated`. -/
theorem C149_warns_partial {doc : Node} (hm : MetaLeaves doc) {n m : Int} {v : Pep440.Ver} (h : Spec.DeclaresVersion doc n m v) (h1 : 1 ≤ n) :
    ((versionCheckLog doc).1 ≠ [] ↔ n = 1 ∧ 0 < m) ∧ ((versionCheckLog doc).2 = .ok () ↔ n = 1) := by
  obtain ⟨a, b, c⟩ := C149_exact hm h
  by_cases hn : 1 < n
  · rw [a hn]; simp; omega
  · have : n = 1 := by omega
    by_cases hm0 : 0 < m
    · obtain ⟨msg, hb, _⟩ := b (by omega) hm0
      rw [hb]; simp [this, hm0]
    · rw [c (by omega) (by omega)]; simp [this]; omega

/-- **C149** for the functions that fetch pages: the warnings are those for the page that was fetched (as C38 and C95 say), and the result is
that of C84. -/
theorem C149_fetched (net : Net) (horder : ∀ l, (net.order l).Perm l) (url : Str) :
    (net.indexLog url).2 = (net.index htmlVersionCheck url).2 ∧
    (∀ loc content doc, Spec.Fetched net url loc content → net.parse content = some doc → (net.indexLog url).1 = (versionCheckLog doc).1) ∧
    ((net.indexLog url).1 ≠ [] → ∃ loc content doc, Spec.Fetched net url loc content ∧ net.parse content = some doc) := by
  have e : (fun d => (versionCheckLog d).2) = htmlVersionCheck := funext log_result
  have hget := get_iff net horder url
  unfold Net.indexLog Net.index
  rw [e]
  rcases hg : net.get url with ⟨reqs, r⟩
  rw [hg] at hget
  cases r with
  | error e => exact ⟨rfl, fun loc content doc hf => (nomatch (hget loc content).mpr hf), fun h => absurd rfl h⟩
  | ok r =>
    obtain ⟨loc, content⟩ := r
    simp only
    cases hp : net.parse content with
    | none =>
      refine ⟨rfl, fun loc' content' doc hf hd => ?_, fun h => absurd rfl h⟩
      cases (hget loc' content').mpr hf
      rw [hp] at hd; cases hd
    | some doc =>
      refine ⟨rfl, fun loc' content' doc' hf hd => ?_, fun _ => ⟨loc, content, doc, (hget loc content).mp rfl, hp⟩⟩
      cases (hget loc' content').mpr hf
      rw [hp] at hd; cases hd; rfl

/-- a page of version 1.3, fetched -/
example : (∀ l, ({ toyNet "w" with parse := fun _ => some (exDoc ["1.3"]) } : Net).order l |>.Perm l) ∧
    ({ toyNet "w" with parse := fun _ => some (exDoc ["1.3"]) } : Net).indexLog "http://i/s/foo-bar".toList =
      (["server's pypi:repository version (1.3) is newer than this client".toList], .ok []) :=
  ⟨fun l => List.Perm.refl l, by decide +kernel⟩

/-- The code violates C149: a page of version 0.9 is reported as newer than the client, which understands 1.0: only the second numbers are
compared (simple_api_versions.go:54). -/
theorem C149_violated : ∃ doc v, MetaLeaves doc ∧ Spec.DeclaresVersion doc 0 9 v ∧ 
    versionCheckLog doc = (["server's pypi:repository version (0.9) is newer than this client".toList], .ok ()) := by
  refine ⟨exDoc ["0.9"], ⟨⟨0, [0, 9], none, none, none⟩, []⟩, ?_, ⟨by decide +kernel, rfl, rfl⟩, by decide +kernel⟩
  intro n hn
  simp [exDoc, Spec.nodes, Spec.nodesList, exMeta] at hn
  rcases hn with rfl | rfl | rfl | rfl <;> simp [Spec.IsElem, Node.kind, Node.data, Node.children]

/-- pages of versions 1.3 and 2.0 -/
example : (∃ v, Spec.DeclaresVersion (exDoc ["1.3"]) 1 3 v) ∧
    versionCheckLog (exDoc ["1.3"]) = (["server's pypi:repository version (1.3) is newer than this client".toList], .ok ()) ∧
    versionCheckLog (exDoc ["2.0"]) = ([], .error ()) ∧ versionCheckLog (exDoc []) = ([], .ok ()) :=
  ⟨⟨⟨⟨0, [1, 3], none, none, none⟩, []⟩, by decide +kernel, rfl, rfl⟩, by decide +kernel, by decide +kernel, by decide +kernel⟩

end Repo
