import Verif.Python.PlatformFileSlots
import Verif.Pep425.Props
import Verif.Python.PropsInspectCmd
/-! C130: the platform file of `ocibuild layer wheel`, and that `ocibuild python inspect` writes one. -/
namespace Python
open Go

namespace Spec

/-- a letter without its case; U+017F and U+212A are a long s and a Kelvin sign -/
def letter (c : Char) : Char := if c = '\u017f' then 's' else lowerC c

/-- `key` is a way to spell `name` -/
def Spells (key name : Str) : Prop := key.map letter = name.map letter

/-- no two keys of the mapping are spellings of each other -/
def Once (m : List (Str × Yaml)) : Prop := m.Pairwise fun a b => ¬ Spells a.1 b.1

/-- the same for the mapping and the mappings in it -/
def Plain (m : List (Str × Yaml)) : Prop := Once m ∧ ∀ kv ∈ m, ∀ m', kv.2 = .map m' → Once m'

/-- every key of the mapping spells one of the names -/
def Known (m : List (Str × Yaml)) (names : List String) : Prop := ∀ kv ∈ m, ∃ n ∈ names, Spells kv.1 n.toList

/-- the mapping has the value `v` under the name `n` -/
def Has (m : List (Str × Yaml)) (n : String) (v : Yaml) : Prop := ∃ k, (k, v) ∈ m ∧ Spells k n.toList

/-- the same, where a key that is not there counts as `null` -/
def Gives (m : List (Str × Yaml)) (n : String) (v : Yaml) : Prop := Has m n v ∨ v = .null ∧ ∀ w, ¬ Has m n w

/-- `R` holds for the elements of the lists pairwise -/
inductive Each {α β : Type} (R : α → β → Prop) : List α → List β → Prop
  | nil : Each R [] []
  | cons {a b l r} : R a b → Each R l r → Each R (a :: l) (b :: r)

def StrAt (m : List (Str × Yaml)) (n : String) (s : Str) : Prop := Gives m n (.str s) ∨ Gives m n .null ∧ s = []

def IntAt (m : List (Str × Yaml)) (n : String) (i : Int) : Prop :=
  Gives m n (.int i) ∧ -2 ^ 63 ≤ i ∧ i < 2 ^ 63 ∨ Gives m n .null ∧ i = 0

/-- numbers from 0 to 255, or base64 -/
def BytesAt (b64 : Str → Option (List UInt8)) (m : List (Str × Yaml)) (n : String) (b : List UInt8) : Prop :=
  (∃ l, Gives m n (.seq l) ∧ Each (fun y (c : UInt8) => y = .int c.toNat ∨ y = .null ∧ c = 0) l b) ∨
  (∃ s, Gives m n (.str s) ∧ b64 s = some b) ∨ Gives m n .null ∧ b = []

/-- a sequence of tags -/
def TagsAt (m : List (Str × Yaml)) (n : String) (ts : List Pep425.Tag) : Prop :=
  (∃ l, Gives m n (.seq l) ∧ Each (fun y (t : Pep425.Tag) =>
    y = .str t.string ∧ '-' ∉ t.python ∧ '-' ∉ t.abi ∧ '-' ∉ t.platform ∨ y = .null ∧ t = ⟨[], [], []⟩) l ts) ∨
  Gives m n .null ∧ ts = []

/-- a sequence of words; numbers and booleans are words -/
def WordsAt (m : List (Str × Yaml)) (n : String) (ws : List Str) : Prop :=
  (∃ l, Gives m n (.seq l) ∧ Each (fun y (w : Str) => y = .str w ∨ (∃ i, y = .int i ∧ w = itoa i) ∨
    y = .bool true ∧ w = "true".toList ∨ y = .bool false ∧ w = "false".toList ∨ y = .null ∧ w = []) l ws) ∨
  Gives m n .null ∧ ws = []

/-- the mapping `m` describes the scheme -/
structure IsScheme (m : List (Str × Yaml)) (s : Scheme) : Prop where
  known : Known m ["purelib", "platlib", "headers", "scripts", "data"]
  purelib : StrAt m "purelib" s.pureLib
  platlib : StrAt m "platlib" s.platLib
  headers : StrAt m "headers" s.headers
  scripts : StrAt m "scripts" s.scripts
  data : StrAt m "data" s.data

/-- the mapping `m` describes the version -/
structure IsVersion (m : List (Str × Yaml)) (v : VersionInfo) : Prop where
  known : Known m ["major", "minor", "micro", "releaselevel", "serial"]
  major : IntAt m "major" v.major
  minor : IntAt m "minor" v.minor
  micro : IntAt m "micro" v.micro
  level : StrAt m "releaselevel" v.releaseLevel
  serial : IntAt m "serial" v.serial

/-- the mapping `m` describes the platform; what it does not mention is empty -/
structure IsPlatform (b64 : Str → Option (List UInt8)) (m : List (Str × Yaml)) (p : PlatFile) : Prop where
  known : Known m ["ConsoleShebang", "GraphicalShebang", "Scheme", "UID", "GID", "UName", "GName", "VersionInfo", "MagicNumber", "Tags",
    "PyCompile"]
  console : StrAt m "ConsoleShebang" p.consoleShebang
  graphical : StrAt m "GraphicalShebang" p.graphicalShebang
  scheme : (∃ m', Gives m "Scheme" (.map m') ∧ IsScheme m' p.scheme) ∨ Gives m "Scheme" .null ∧ p.scheme = ⟨[], [], [], [], []⟩
  uid : IntAt m "UID" p.uid
  gid : IntAt m "GID" p.gid
  uname : StrAt m "UName" p.uname
  gname : StrAt m "GName" p.gname
  version : (∃ m' v, Gives m "VersionInfo" (.map m') ∧ p.versionInfo = some v ∧ IsVersion m' v) ∨
    Gives m "VersionInfo" .null ∧ p.versionInfo = none
  magic : BytesAt b64 m "MagicNumber" p.magicNumber
  tags : TagsAt m "Tags" p.tags
  pyCompile : WordsAt m "PyCompile" p.pyCompile

end Spec

open Spec

/-! ## Keys -/

theorem letter_eq : Spec.letter = foldC := rfl

theorem once_fold {m : List (Str × Yaml)} (h : Once m) : (m.map (fun kv => kv.1.map foldC)).Nodup := by
  unfold List.Nodup
  rw [List.pairwise_map]
  exact h

theorem once_keys {m : List (Str × Yaml)} (h : Once m) : (m.map (·.1)).Nodup := by
  unfold List.Nodup
  rw [List.pairwise_map]
  refine List.Pairwise.imp ?_ h
  intro a b hn e
  exact hn (by rw [e]; rfl)

theorem has_unique {m : List (Str × Yaml)} (h : Once m) {n : String} {v w : Yaml} (hv : Has m n v) (hw : Has m n w) : v = w := by
  obtain ⟨k, h1, h2⟩ := hv
  obtain ⟨k', h3, h4⟩ := hw
  have := uniq_of_nodup (fun kv : Str × Yaml => kv.1.map foldC) (once_fold h) h1 h3 (h2.trans h4.symm)
  injection this

theorem gives_unique {m : List (Str × Yaml)} (h : Once m) {n : String} {v w : Yaml} (hv : Gives m n v) (hw : Gives m n w) : v = w := by
  rcases hv with hv | ⟨rfl, hv⟩
  · rcases hw with hw | ⟨rfl, hw⟩
    · exact has_unique h hv hw
    · exact absurd hv (hw _)
  · rcases hw with hw | ⟨rfl, hw⟩
    · exact absurd hw (hv _)
    · rfl

theorem exists_gives (m : List (Str × Yaml)) (n : String) : ∃ v, Gives m n v := by
  by_cases h : ∃ v, Has m n v
  · obtain ⟨v, h⟩ := h
    exact ⟨v, .inl h⟩
  · exact ⟨.null, .inr ⟨rfl, fun w hw => h ⟨w, hw⟩⟩⟩

/-- what a field is set to by decoding a mapping -/
theorem decoded {σ α : Type} {fields : List (Str × Setter σ)} {n : String} {set : Setter σ} {π : σ → α} {s : σ}
    (sl : Slot fields n.toList set π) (g0 : σ → σ) (hg0 : set .null = some g0) (h0 : π (g0 s) = π s) {m : List (Str × Yaml)}
    (ho : Once m) {f : σ → σ} (hf : decodeFields fields (object m) = some f) {v : Yaml} (hv : Gives m n v) :
    ∃ g, set v = some g ∧ π (f s) = π (g s) := by
  have hp := perm_object (once_keys ho)
  rcases hv with ⟨k, hk, hn⟩ | ⟨rfl, hv⟩
  · obtain ⟨g, h1, h2⟩ := slot_at sl (object m) f hf ((hp.map _).nodup_iff.mpr (once_fold ho)) k v (hp.mem_iff.mpr hk) hn
    exact ⟨g, h1, h2 s⟩
  · refine ⟨g0, hg0, ?_⟩
    rw [h0]
    refine slot_other sl (object m) f hf ?_ s
    rintro ⟨k, v⟩ hkv hn
    exact hv v ⟨k, hp.mem_iff.mp hkv, hn⟩

theorem known_of_decoded {σ : Type} {fields : List (Str × Setter σ)} (ha : Apart fields) {names : List String}
    (hnames : fields.map (·.1) = names.map String.toList) {m : List (Str × Yaml)} {f : σ → σ}
    (hf : decodeFields fields (object m) = some f) : Known m names := by
  rintro ⟨k, v⟩ hkv
  have : k ∈ (object m).map (·.1) := (keys_object m k).mpr (List.mem_map_of_mem (f := fun kv : Str × Yaml => kv.1) hkv)
  obtain ⟨⟨k', v'⟩, h1, rfl⟩ := List.mem_map.mp this
  obtain ⟨set, g, h2, _⟩ := (decodeFields_ok fields (object m)).mp ⟨f, hf⟩ _ h1
  obtain ⟨n, h3, h4⟩ := (findField_iff ha _ _).mp h2
  have : n ∈ fields.map (·.1) := List.mem_map_of_mem (f := fun r : Str × Setter σ => r.1) h3
  rw [hnames] at this
  obtain ⟨n', h5, rfl⟩ := List.mem_map.mp this
  exact ⟨n', h5, h4⟩

theorem decoded_of_known {σ : Type} {fields : List (Str × Setter σ)} (ha : Apart fields) {names : List String}
    (hnames : fields.map (·.1) = names.map String.toList) {m : List (Str × Yaml)} (ho : Once m) (hk : Known m names)
    (h : ∀ r ∈ fields, ∀ v, (∃ k, (k, v) ∈ m ∧ Spells k r.1) → ∃ g, r.2 v = some g) :
    ∃ f, decodeFields fields (object m) = some f := by
  refine (decodeFields_ok fields (object m)).mpr ?_
  rintro ⟨k, v⟩ hkv
  have hkv := (perm_object (once_keys ho)).mem_iff.mp hkv
  obtain ⟨n, hn, hs⟩ := hk _ hkv
  have : n.toList ∈ fields.map (·.1) := by rw [hnames]; exact List.mem_map_of_mem hn
  obtain ⟨⟨n', set⟩, h1, h2⟩ := List.mem_map.mp this
  simp only at h2
  subst h2
  obtain ⟨g, hg⟩ := h _ h1 v ⟨k, hkv, hs⟩
  exact ⟨set, g, (findField_iff ha _ _).mpr ⟨_, h1, hs⟩, hg⟩

/-! ## Values -/

theorem each_mapM {α β : Type} (f : α → Option β) (R : α → β → Prop) (h : ∀ a b, f a = some b ↔ R a b) :
    ∀ (l : List α) (r : List β), l.mapM f = some r ↔ Each R l r
  | [], r => by
    constructor
    · intro e; cases e; exact .nil
    · intro e; cases e; rfl
  | a :: l, r => by
    rw [mapM_cons_some]
    constructor
    · rintro ⟨b, t, h1, h2, rfl⟩
      exact .cons ((h a b).mp h1) ((each_mapM f R h l t).mp h2)
    · intro e
      cases e with
      | cons h1 h2 => exact ⟨_, _, (h _ _).mpr h1, (each_mapM f R h l _).mpr h2, rfl⟩

theorem byteOf_iff (y : Yaml) (c : UInt8) : byteOf y = some c ↔ (y = .int c.toNat ∨ y = .null ∧ c = 0) := by
  cases y with
  | null => simp [byteOf, eq_comm]
  | int i =>
    simp only [byteOf, Yaml.int.injEq, reduceCtorEq, false_and, or_false]
    constructor
    · intro h
      split at h
      · rename_i hi
        injection h with h
        subst h
        have : i.toNat < 256 := by omega
        rw [UInt8.toNat_ofNat', Nat.mod_eq_of_lt this]
        omega
      · cases h
    · rintro rfl
      have := c.toNat_lt
      rw [if_pos (by omega)]
      simp
  | bool b => simp [byteOf]
  | str s => simp [byteOf]
  | seq l => simp [byteOf]
  | map m => simp [byteOf]

theorem tagOf_iff (y : Yaml) (t : Pep425.Tag) : tagOf y = some t ↔
    (y = .str t.string ∧ '-' ∉ t.python ∧ '-' ∉ t.abi ∧ '-' ∉ t.platform ∨ y = .null ∧ t = ⟨[], [], []⟩) := by
  cases y with
  | null => simp [tagOf, eq_comm]
  | str s =>
    simp only [tagOf, Yaml.str.injEq, reduceCtorEq, false_and, or_false]
    have hT := Pep425.C30_round_trip
    constructor
    · intro h
      cases hp : Pep425.parseTag s with
      | error e => rw [hp] at h; cases h
      | ok t' =>
        rw [hp] at h
        injection h with h
        subst h
        have e := hT.2 s t' hp
        refine ⟨e.symm, ?_⟩
        rw [← e] at hp
        exact (hT.1 t').mp hp
    · rintro ⟨rfl, h⟩
      rw [(hT.1 t).mpr h]
  | bool b => simp [tagOf]
  | int s => simp [tagOf]
  | seq l => simp [tagOf]
  | map m => simp [tagOf]

theorem wordOf_iff (y : Yaml) (w : Str) : wordOf y = some w ↔
    (y = .str w ∨ (∃ i, y = .int i ∧ w = itoa i) ∨ y = .bool true ∧ w = "true".toList ∨ y = .bool false ∧ w = "false".toList ∨
      y = .null ∧ w = []) := by
  cases y with
  | null => simp [wordOf, eq_comm]
  | str s => simp [wordOf]
  | bool b => cases b <;> simp [wordOf, eq_comm]
  | int s => simp [wordOf, eq_comm]
  | seq l => simp [wordOf]
  | map m => simp [wordOf]

/-! ## Fields -/

section
variable {σ : Type} {fields : List (Str × Setter σ)} {n : String} {s : σ} {m : List (Str × Yaml)} {f : σ → σ}

theorem read_str {π : σ → Str} {put : Str → σ → σ} (sl : Slot fields n.toList (setStr put) π) (hput : ∀ v s, π (put v s) = v)
    (h0 : π s = []) (ho : Once m) (hf : decodeFields fields (object m) = some f) : StrAt m n (π (f s)) := by
  obtain ⟨v, hv⟩ := exists_gives m n
  obtain ⟨g, h1, h2⟩ := decoded (s := s) sl id rfl rfl ho hf hv
  rw [h2]
  cases v <;> simp only [setStr, Option.some.injEq, reduceCtorEq] at h1 <;> subst h1
  · exact .inr ⟨hv, h0⟩
  · rw [hput]; exact .inl hv

theorem ok_str {put : Str → σ → σ} {x : Str} (h : StrAt m n x) (ho : Once m) {v : Yaml} (hv : Has m n v) : ∃ g, setStr put v = some g := by
  rcases h with h | ⟨h, _⟩ <;> rw [gives_unique ho (.inl hv) h] <;> exact ⟨_, rfl⟩

theorem unique_str {x y : Str} (ho : Once m) (hx : StrAt m n x) (hy : StrAt m n y) : x = y := by
  rcases hx with hx | ⟨hx, rfl⟩ <;> rcases hy with hy | ⟨hy, rfl⟩ <;> have e := gives_unique ho hx hy <;> first | cases e; rfl | cases e

theorem read_int {π : σ → Int} {put : Int → σ → σ} (sl : Slot fields n.toList (setInt put) π) (hput : ∀ v s, π (put v s) = v)
    (h0 : π s = 0) (ho : Once m) (hf : decodeFields fields (object m) = some f) : IntAt m n (π (f s)) := by
  obtain ⟨v, hv⟩ := exists_gives m n
  obtain ⟨g, h1, h2⟩ := decoded (s := s) sl id rfl rfl ho hf hv
  rw [h2]
  cases v <;> simp only [setInt, Option.some.injEq, reduceCtorEq] at h1
  · subst h1; exact .inr ⟨hv, h0⟩
  · split at h1
    · rename_i hi
      injection h1 with h1
      subst h1
      rw [hput]
      exact .inl ⟨hv, by omega⟩
    · cases h1

theorem ok_int {put : Int → σ → σ} {x : Int} (h : IntAt m n x) (ho : Once m) {v : Yaml} (hv : Has m n v) : ∃ g, setInt put v = some g := by
  rcases h with ⟨h, hi⟩ | ⟨h, _⟩ <;> rw [gives_unique ho (.inl hv) h]
  · exact ⟨_, if_pos (by omega)⟩
  · exact ⟨_, rfl⟩

theorem unique_int {x y : Int} (ho : Once m) (hx : IntAt m n x) (hy : IntAt m n y) : x = y := by
  rcases hx with ⟨hx, _⟩ | ⟨hx, rfl⟩ <;> rcases hy with ⟨hy, _⟩ | ⟨hy, rfl⟩ <;> have e := gives_unique ho hx hy <;>
    first | cases e; rfl | cases e

theorem read_bytes {b64} {π : σ → List UInt8} {put : List UInt8 → σ → σ} (sl : Slot fields n.toList (setBytes b64 put) π)
    (hput : ∀ v s, π (put v s) = v) (h0 : π s = []) (ho : Once m) (hf : decodeFields fields (object m) = some f) :
    BytesAt b64 m n (π (f s)) := by
  obtain ⟨v, hv⟩ := exists_gives m n
  obtain ⟨g, h1, h2⟩ := decoded (s := s) sl _ rfl (by rw [hput, h0]) ho hf hv
  rw [h2]
  cases v <;> simp only [setBytes, Option.some.injEq, reduceCtorEq, Option.map_eq_some_iff] at h1
  · subst h1; rw [hput]; exact .inr (.inr ⟨hv, rfl⟩)
  · obtain ⟨b, h1, rfl⟩ := h1
    rw [hput]
    exact .inr (.inl ⟨_, hv, h1⟩)
  · obtain ⟨b, h1, rfl⟩ := h1
    rw [hput]
    exact .inl ⟨_, hv, (each_mapM _ _ byteOf_iff _ _).mp h1⟩

theorem ok_bytes {b64} {put : List UInt8 → σ → σ} {x : List UInt8} (h : BytesAt b64 m n x) (ho : Once m) {v : Yaml} (hv : Has m n v) :
    ∃ g, setBytes b64 put v = some g := by
  rcases h with ⟨l, h, he⟩ | ⟨t, h, he⟩ | ⟨h, _⟩ <;> rw [gives_unique ho (.inl hv) h]
  · exact ⟨put x, by rw [setBytes, (each_mapM _ _ byteOf_iff _ _).mpr he]; rfl⟩
  · exact ⟨put x, by rw [setBytes, he]; rfl⟩
  · exact ⟨_, rfl⟩

theorem unique_bytes {b64} {x y : List UInt8} (ho : Once m) (hx : BytesAt b64 m n x) (hy : BytesAt b64 m n y) : x = y := by
  rcases hx with ⟨l, hx, he⟩ | ⟨t, hx, he⟩ | ⟨hx, rfl⟩ <;> rcases hy with ⟨l', hy, he'⟩ | ⟨t', hy, he'⟩ | ⟨hy, rfl⟩ <;>
    have e := gives_unique ho hx hy <;> cases e
  · rw [← each_mapM _ _ byteOf_iff] at he he'
    rw [he] at he'
    exact Option.some.inj he'
  · rw [he] at he'
    exact Option.some.inj he'
  · rfl

theorem read_tags {π : σ → List Pep425.Tag} {put : List Pep425.Tag → σ → σ} (sl : Slot fields n.toList (setTags put) π)
    (hput : ∀ v s, π (put v s) = v) (h0 : π s = []) (ho : Once m) (hf : decodeFields fields (object m) = some f) :
    TagsAt m n (π (f s)) := by
  obtain ⟨v, hv⟩ := exists_gives m n
  obtain ⟨g, h1, h2⟩ := decoded (s := s) sl _ rfl (by rw [hput, h0]) ho hf hv
  rw [h2]
  cases v <;> simp only [setTags, Option.some.injEq, reduceCtorEq, Option.map_eq_some_iff] at h1
  · subst h1; rw [hput]; exact .inr ⟨hv, rfl⟩
  · obtain ⟨b, h1, rfl⟩ := h1
    rw [hput]
    exact .inl ⟨_, hv, (each_mapM _ _ tagOf_iff _ _).mp h1⟩

theorem ok_tags {put : List Pep425.Tag → σ → σ} {x : List Pep425.Tag} (h : TagsAt m n x) (ho : Once m) {v : Yaml} (hv : Has m n v) :
    ∃ g, setTags put v = some g := by
  rcases h with ⟨l, h, he⟩ | ⟨h, _⟩ <;> rw [gives_unique ho (.inl hv) h]
  · exact ⟨put x, by rw [setTags, (each_mapM _ _ tagOf_iff _ _).mpr he]; rfl⟩
  · exact ⟨_, rfl⟩

theorem unique_tags {x y : List Pep425.Tag} (ho : Once m) (hx : TagsAt m n x) (hy : TagsAt m n y) : x = y := by
  rcases hx with ⟨l, hx, he⟩ | ⟨hx, rfl⟩ <;> rcases hy with ⟨l', hy, he'⟩ | ⟨hy, rfl⟩ <;>
    have e := gives_unique ho hx hy <;> cases e
  · rw [← each_mapM _ _ tagOf_iff] at he he'
    rw [he] at he'
    exact Option.some.inj he'
  · rfl

theorem read_words {π : σ → List Str} {put : List Str → σ → σ} (sl : Slot fields n.toList (setWords put) π)
    (hput : ∀ v s, π (put v s) = v) (h0 : π s = []) (ho : Once m) (hf : decodeFields fields (object m) = some f) :
    WordsAt m n (π (f s)) := by
  obtain ⟨v, hv⟩ := exists_gives m n
  obtain ⟨g, h1, h2⟩ := decoded (s := s) sl _ rfl (by rw [hput, h0]) ho hf hv
  rw [h2]
  cases v <;> simp only [setWords, Option.some.injEq, reduceCtorEq, Option.map_eq_some_iff] at h1
  · subst h1; rw [hput]; exact .inr ⟨hv, rfl⟩
  · obtain ⟨b, h1, rfl⟩ := h1
    rw [hput]
    exact .inl ⟨_, hv, (each_mapM _ _ wordOf_iff _ _).mp h1⟩

theorem ok_words {put : List Str → σ → σ} {x : List Str} (h : WordsAt m n x) (ho : Once m) {v : Yaml} (hv : Has m n v) :
    ∃ g, setWords put v = some g := by
  rcases h with ⟨l, h, he⟩ | ⟨h, _⟩ <;> rw [gives_unique ho (.inl hv) h]
  · exact ⟨put x, by rw [setWords, (each_mapM _ _ wordOf_iff _ _).mpr he]; rfl⟩
  · exact ⟨_, rfl⟩

theorem unique_words {x y : List Str} (ho : Once m) (hx : WordsAt m n x) (hy : WordsAt m n y) : x = y := by
  rcases hx with ⟨l, hx, he⟩ | ⟨hx, rfl⟩ <;> rcases hy with ⟨l', hy, he'⟩ | ⟨hy, rfl⟩ <;>
    have e := gives_unique ho hx hy <;> cases e
  · rw [← each_mapM _ _ wordOf_iff] at he he'
    rw [he] at he'
    exact Option.some.inj he'
  · rfl

end

/-! ## Structs -/

theorem scheme_read {m : List (Str × Yaml)} (ho : Once m) {f : Scheme → Scheme} (hf : decodeFields schemeFields (object m) = some f) :
    IsScheme m (f ⟨[], [], [], [], []⟩) where
  known := known_of_decoded apart_scheme rfl hf
  purelib := read_str slot_purelib (fun _ _ => rfl) rfl ho hf
  platlib := read_str slot_platlib (fun _ _ => rfl) rfl ho hf
  headers := read_str slot_headers (fun _ _ => rfl) rfl ho hf
  scripts := read_str slot_scripts (fun _ _ => rfl) rfl ho hf
  data := read_str slot_data (fun _ _ => rfl) rfl ho hf

theorem scheme_ok {m : List (Str × Yaml)} (ho : Once m) {sc : Scheme} (h : IsScheme m sc) :
    ∃ f, decodeFields schemeFields (object m) = some f := by
  refine decoded_of_known apart_scheme rfl ho h.known ?_
  unfold schemeFields
  refine List.forall_mem_cons.mpr ⟨fun v hv => ok_str h.purelib ho hv, ?_⟩
  refine List.forall_mem_cons.mpr ⟨fun v hv => ok_str h.platlib ho hv, ?_⟩
  refine List.forall_mem_cons.mpr ⟨fun v hv => ok_str h.headers ho hv, ?_⟩
  refine List.forall_mem_cons.mpr ⟨fun v hv => ok_str h.scripts ho hv, ?_⟩
  refine List.forall_mem_cons.mpr ⟨fun v hv => ok_str h.data ho hv, ?_⟩
  exact fun _ h => absurd h List.not_mem_nil

theorem scheme_unique {m : List (Str × Yaml)} (ho : Once m) {a b : Scheme} (ha : IsScheme m a) (hb : IsScheme m b) : a = b := by
  obtain ⟨a1, a2, a3, a4, a5⟩ := a
  obtain ⟨b1, b2, b3, b4, b5⟩ := b
  have h1 := unique_str ho ha.purelib hb.purelib
  have h2 := unique_str ho ha.platlib hb.platlib
  have h3 := unique_str ho ha.headers hb.headers
  have h4 := unique_str ho ha.scripts hb.scripts
  have h5 := unique_str ho ha.data hb.data
  simp only at h1 h2 h3 h4 h5
  subst h1 h2 h3 h4 h5
  rfl

theorem version_read {m : List (Str × Yaml)} (ho : Once m) {f : VersionInfo → VersionInfo}
    (hf : decodeFields versionFields (object m) = some f) : IsVersion m (f ⟨0, 0, 0, [], 0⟩) where
  known := known_of_decoded apart_version rfl hf
  major := read_int slot_major (fun _ _ => rfl) rfl ho hf
  minor := read_int slot_minor (fun _ _ => rfl) rfl ho hf
  micro := read_int slot_micro (fun _ _ => rfl) rfl ho hf
  level := read_str slot_level (fun _ _ => rfl) rfl ho hf
  serial := read_int slot_serial (fun _ _ => rfl) rfl ho hf

theorem version_ok {m : List (Str × Yaml)} (ho : Once m) {vi : VersionInfo} (h : IsVersion m vi) :
    ∃ f, decodeFields versionFields (object m) = some f := by
  refine decoded_of_known apart_version rfl ho h.known ?_
  unfold versionFields
  refine List.forall_mem_cons.mpr ⟨fun v hv => ok_int h.major ho hv, ?_⟩
  refine List.forall_mem_cons.mpr ⟨fun v hv => ok_int h.minor ho hv, ?_⟩
  refine List.forall_mem_cons.mpr ⟨fun v hv => ok_int h.micro ho hv, ?_⟩
  refine List.forall_mem_cons.mpr ⟨fun v hv => ok_str h.level ho hv, ?_⟩
  refine List.forall_mem_cons.mpr ⟨fun v hv => ok_int h.serial ho hv, ?_⟩
  exact fun _ h => absurd h List.not_mem_nil

theorem version_unique {m : List (Str × Yaml)} (ho : Once m) {a b : VersionInfo} (ha : IsVersion m a) (hb : IsVersion m b) : a = b := by
  obtain ⟨a1, a2, a3, a4, a5⟩ := a
  obtain ⟨b1, b2, b3, b4, b5⟩ := b
  have h1 := unique_int ho ha.major hb.major
  have h2 := unique_int ho ha.minor hb.minor
  have h3 := unique_int ho ha.micro hb.micro
  have h4 := unique_str ho ha.level hb.level
  have h5 := unique_int ho ha.serial hb.serial
  simp only at h1 h2 h3 h4 h5
  subst h1 h2 h3 h4 h5
  rfl

theorem once_below {m m' : List (Str × Yaml)} {n : String} (h : Plain m) (hg : Gives m n (.map m')) : Once m' := by
  rcases hg with ⟨k, hk, _⟩ | ⟨e, _⟩
  · exact h.2 _ hk m' rfl
  · cases e

theorem platform_read {b64} {m : List (Str × Yaml)} (hp : Plain m) {f : PlatFile → PlatFile}
    (hf : decodeFields (platformFields b64) (object m) = some f) : IsPlatform b64 m (f PlatFile.zero) where
  known := known_of_decoded (apart_platform b64) rfl hf
  console := read_str (slot_console b64) (fun _ _ => rfl) rfl hp.1 hf
  graphical := read_str (slot_graphical b64) (fun _ _ => rfl) rfl hp.1 hf
  scheme := by
    obtain ⟨v, hv⟩ := exists_gives m "Scheme"
    obtain ⟨g, h1, h2⟩ := decoded (s := PlatFile.zero) (slot_scheme b64) id rfl rfl hp.1 hf hv
    rw [h2]
    cases v <;> simp only [setScheme, Option.some.injEq, reduceCtorEq, Option.map_eq_some_iff] at h1
    · subst h1; exact .inr ⟨hv, rfl⟩
    · obtain ⟨f', h1, rfl⟩ := h1
      exact .inl ⟨_, hv, scheme_read (once_below hp hv) h1⟩
  uid := read_int (slot_uid b64) (fun _ _ => rfl) rfl hp.1 hf
  gid := read_int (slot_gid b64) (fun _ _ => rfl) rfl hp.1 hf
  uname := read_str (slot_uname b64) (fun _ _ => rfl) rfl hp.1 hf
  gname := read_str (slot_gname b64) (fun _ _ => rfl) rfl hp.1 hf
  version := by
    obtain ⟨v, hv⟩ := exists_gives m "VersionInfo"
    obtain ⟨g, h1, h2⟩ := decoded (s := PlatFile.zero) (slot_version b64) _ rfl rfl hp.1 hf hv
    rw [h2]
    cases v <;> simp only [setVersion, Option.some.injEq, reduceCtorEq, Option.map_eq_some_iff] at h1
    · subst h1; exact .inr ⟨hv, rfl⟩
    · obtain ⟨f', h1, rfl⟩ := h1
      exact .inl ⟨_, _, hv, rfl, version_read (once_below hp hv) h1⟩
  magic := read_bytes (slot_magic b64) (fun _ _ => rfl) rfl hp.1 hf
  tags := read_tags (slot_tags b64) (fun _ _ => rfl) rfl hp.1 hf
  pyCompile := read_words (slot_pycompile b64) (fun _ _ => rfl) rfl hp.1 hf

theorem platform_ok {b64} {m : List (Str × Yaml)} (hp : Plain m) {p : PlatFile} (h : IsPlatform b64 m p) :
    ∃ f, decodeFields (platformFields b64) (object m) = some f := by
  refine decoded_of_known (apart_platform b64) rfl hp.1 h.known ?_
  unfold platformFields
  refine List.forall_mem_cons.mpr ⟨fun v hv => ok_str h.console hp.1 hv, ?_⟩
  refine List.forall_mem_cons.mpr ⟨fun v hv => ok_str h.graphical hp.1 hv, ?_⟩
  refine List.forall_mem_cons.mpr ⟨fun v hv => ?_, ?_⟩
  · have hv : Has m "Scheme" v := hv
    rcases h.scheme with ⟨m', hg, hs⟩ | ⟨hg, _⟩ <;> rw [gives_unique hp.1 (.inl hv) hg]
    · obtain ⟨f, hf⟩ := scheme_ok (once_below hp hg) hs
      exact ⟨_, by simp only [setScheme, hf]; rfl⟩
    · exact ⟨_, rfl⟩
  refine List.forall_mem_cons.mpr ⟨fun v hv => ok_int h.uid hp.1 hv, ?_⟩
  refine List.forall_mem_cons.mpr ⟨fun v hv => ok_int h.gid hp.1 hv, ?_⟩
  refine List.forall_mem_cons.mpr ⟨fun v hv => ok_str h.uname hp.1 hv, ?_⟩
  refine List.forall_mem_cons.mpr ⟨fun v hv => ok_str h.gname hp.1 hv, ?_⟩
  refine List.forall_mem_cons.mpr ⟨fun v hv => ?_, ?_⟩
  · have hv : Has m "VersionInfo" v := hv
    rcases h.version with ⟨m', _, hg, _, hs⟩ | ⟨hg, _⟩ <;> rw [gives_unique hp.1 (.inl hv) hg]
    · obtain ⟨f, hf⟩ := version_ok (once_below hp hg) hs
      exact ⟨_, by simp only [setVersion, hf]; rfl⟩
    · exact ⟨_, rfl⟩
  refine List.forall_mem_cons.mpr ⟨fun v hv => by dsimp only; exact ok_bytes h.magic hp.1 hv, ?_⟩
  refine List.forall_mem_cons.mpr ⟨fun v hv => by dsimp only; exact ok_tags h.tags hp.1 hv, ?_⟩
  refine List.forall_mem_cons.mpr ⟨fun v hv => by dsimp only; exact ok_words h.pyCompile hp.1 hv, ?_⟩
  exact fun _ h => absurd h List.not_mem_nil

theorem platform_unique {b64} {m : List (Str × Yaml)} (hp : Plain m) {a b : PlatFile} (ha : IsPlatform b64 m a) (hb : IsPlatform b64 m b) :
    a = b := by
  have h1 := unique_str hp.1 ha.console hb.console
  have h2 := unique_str hp.1 ha.graphical hb.graphical
  have h3 : a.scheme = b.scheme := by
    rcases ha.scheme with ⟨m1, g1, s1⟩ | ⟨g1, s1⟩ <;> rcases hb.scheme with ⟨m2, g2, s2⟩ | ⟨g2, s2⟩ <;>
      have e := gives_unique hp.1 g1 g2 <;> cases e
    · exact scheme_unique (once_below hp g1) s1 s2
    · rw [s1, s2]
  have h4 := unique_int hp.1 ha.uid hb.uid
  have h5 := unique_int hp.1 ha.gid hb.gid
  have h6 := unique_str hp.1 ha.uname hb.uname
  have h7 := unique_str hp.1 ha.gname hb.gname
  have h8 : a.versionInfo = b.versionInfo := by
    rcases ha.version with ⟨m1, v1, g1, e1, s1⟩ | ⟨g1, s1⟩ <;> rcases hb.version with ⟨m2, v2, g2, e2, s2⟩ | ⟨g2, s2⟩ <;>
      have e := gives_unique hp.1 g1 g2 <;> cases e
    · rw [e1, e2, version_unique (once_below hp g1) s1 s2]
    · rw [s1, s2]
  have h9 := unique_bytes hp.1 ha.magic hb.magic
  have h10 := unique_tags hp.1 ha.tags hb.tags
  have h11 := unique_words hp.1 ha.pyCompile hb.pyCompile
  obtain ⟨a1, a2, a3, a4, a5, a6, a7, a8, a9, a10, a11⟩ := a
  obtain ⟨b1, b2, b3, b4, b5, b6, b7, b8, b9, b10, b11⟩ := b
  simp only at h1 h2 h3 h4 h5 h6 h7 h8 h9 h10 h11
  subst h1 h2 h3 h4 h5 h6 h7 h8 h9 h10 h11
  rfl

/-! ## The property -/

/-- **C130**: which platform files `ocibuild layer wheel` accepts and what it takes from them: a mapping none of whose keys is given
twice is read as the platform it describes, key by key, whatever the order and the case of the keys, and it is refused if it describes
no platform, in particular if it has a key that is not one of a platform. -/
theorem C130_reads (b64 : Str → Option (List UInt8)) (m : List (Str × Yaml)) (hm : Spec.Plain m) (p : PlatFile) :
    decodePlatform b64 (.map m) = some p ↔ Spec.IsPlatform b64 m p := by
  rw [decodePlatform, Option.map_eq_some_iff]
  constructor
  · rintro ⟨f, hf, rfl⟩
    exact platform_read hm hf
  · intro h
    obtain ⟨f, hf⟩ := platform_ok hm h
    exact ⟨f, hf, platform_unique hm (platform_read hm hf) h⟩

theorem insertKey_again (k : Str) (v w : Yaml) : ∀ o, insertKey k w (insertKey k v o) = insertKey k w o
  | [] => by simp [insertKey]
  | (k', v') :: o => by
    rw [insertKey]
    split
    · next h => simp [insertKey, h]
    · next h => split
                · next h2 => simp [insertKey, h, h2]
                · next h2 => simp [insertKey, h, h2, insertKey_again k v w o]

theorem insertKey_swap {a b : Str} (hab : a < b) (v w : Yaml) : ∀ o, insertKey a v (insertKey b w o) = insertKey b w (insertKey a v o)
  | [] => by
    have : ¬ a = b := by rintro rfl; exact List.lt_irrefl _ hab
    have h2 : ¬ b < a := fun h => List.lt_irrefl _ (List.lt_trans h hab)
    simp [insertKey, this, h2, hab, Ne.symm this]
  | (k, x) :: o => by
    have e1 : ¬ a = b := by rintro rfl; exact List.lt_irrefl _ hab
    have e2 : ¬ b < a := fun h => List.lt_irrefl _ (List.lt_trans h hab)
    by_cases h1 : a = k
    · subst h1
      simp [insertKey, e2, Ne.symm e1]
    · by_cases h2 : b = k
      · subst h2
        simp [insertKey, e1, e2, Ne.symm e1, hab]
      · by_cases h3 : b < k
        · have h4 := List.lt_trans hab h3
          simp [insertKey, e1, e2, Ne.symm e1, hab, h1, h2, h3, h4]
        · by_cases h4 : a < k
          · simp [insertKey, e2, Ne.symm e1, h1, h2, h3, h4]
          · simp [insertKey, h1, h2, h3, h4, insertKey_swap hab v w o]

theorem foldl_insertKey_drop (k : Str) (v : Yaml) : ∀ (b o : List (Str × Yaml)), k ∈ b.map (·.1) →
    b.foldl (fun o kv => insertKey kv.1 kv.2 o) (insertKey k v o) = b.foldl (fun o kv => insertKey kv.1 kv.2 o) o
  | [], _, h => by simp at h
  | (k', w) :: b, o, h => by
    rw [List.foldl_cons, List.foldl_cons]
    by_cases e : k = k'
    · subst e; rw [insertKey_again]
    · have hb : k ∈ b.map (·.1) := by simpa [e] using h
      have : insertKey k' w (insertKey k v o) = insertKey k v (insertKey k' w o) := by
        by_cases hl : k < k'
        · exact (insertKey_swap hl v w o).symm
        · have : k' < k := Classical.byContradiction fun h2 => e (List.le_antisymm (List.not_lt.mp h2) (List.not_lt.mp hl))
          exact insertKey_swap this w v o
      simp only [this]
      exact foldl_insertKey_drop k v b _ hb

/-- **C130**: of a key that is given twice the last one counts: the file is read as if the other were not there -/
theorem C130_twice (b64 : Str → Option (List UInt8)) (a b : List (Str × Yaml)) (k : Str) (v w : Yaml) (h : (k, w) ∈ b) :
    decodePlatform b64 (.map (a ++ (k, v) :: b)) = decodePlatform b64 (.map (a ++ b)) := by
  have : object (a ++ (k, v) :: b) = object (a ++ b) := by
    rw [object, object, List.foldl_append, List.foldl_append, List.foldl_cons]
    exact foldl_insertKey_drop k v b _ (List.mem_map.mpr ⟨_, h, rfl⟩)
  rw [decodePlatform, decodePlatform, this]

/-- of two users the last one counts -/
example : (decodePlatform (fun _ => none) (.map [("UID".toList, .int 5), ("GID".toList, .int 1), ("UID".toList, .int 7)])).map (·.uid) = some 7 := by
  have h := C130_twice (fun _ => none) [] [("GID".toList, .int 1), ("UID".toList, .int 7)] "UID".toList (.int 5) (.int 7) (by simp)
  rw [List.nil_append, List.nil_append] at h
  rw [h]
  decide +kernel

/-- **C130**: a key that is not one of a platform is refused, even if keys are given twice -/
theorem C130_unknown (b64 : Str → Option (List UInt8)) (m : List (Str × Yaml)) (k : Str) (v : Yaml) (hk : (k, v) ∈ m)
    (hn : ∀ n ∈ ["ConsoleShebang", "GraphicalShebang", "Scheme", "UID", "GID", "UName", "GName", "VersionInfo", "MagicNumber", "Tags",
      "PyCompile"], ¬ Spec.Spells k n.toList) : decodePlatform b64 (.map m) = none := by
  rw [decodePlatform, Option.map_eq_none_iff]
  cases hf : decodeFields (platformFields b64) (object m) with
  | none => rfl
  | some f =>
    obtain ⟨n, h1, h2⟩ := known_of_decoded (apart_platform b64)
      (names := ["ConsoleShebang", "GraphicalShebang", "Scheme", "UID", "GID", "UName", "GName", "VersionInfo", "MagicNumber", "Tags",
      "PyCompile"]) rfl hf _ hk
    exact absurd h2 (hn n h1)

theorem once_of_fold {m : List (Str × Yaml)} (h : (m.map (fun kv => kv.1.map foldC)).Nodup) : Once m := by
  unfold List.Nodup at h
  rw [List.pairwise_map] at h
  exact h

/-- a report with nothing in it, for its keys -/
def blank : Report := ⟨[], [], ⟨[], [], [], [], []⟩, ⟨0, 0, [], []⟩, ⟨0, 0, 0, [], 0⟩, [], [], []⟩

/-- the mapping of a document -/
def Yaml.entries : Yaml → List (Str × Yaml)
  | .map m => m
  | _ => []

theorem once_encodeScheme (s : Scheme) : Once (encodeScheme s).entries := by
  have e : (encodeScheme s).entries.map (fun kv => kv.1.map foldC) = (encodeScheme blank.scheme).entries.map (fun kv => kv.1.map foldC) := rfl
  exact once_of_fold (by rw [e]; decide +kernel)

theorem once_encodeVersion (v : VersionInfo) : Once (encodeVersion v).entries := by
  have e : (encodeVersion v).entries.map (fun kv => kv.1.map foldC) = (encodeVersion blank.version).entries.map (fun kv => kv.1.map foldC) := rfl
  exact once_of_fold (by rw [e]; decide +kernel)

theorem plain_encodeReport (r : Report) : Plain (encodeReport r).entries := by
  refine ⟨?_, ?_⟩
  · have e : (encodeReport r).entries.map (fun kv => kv.1.map foldC) = (encodeReport blank).entries.map (fun kv => kv.1.map foldC) := rfl
    exact once_of_fold (by rw [e]; decide +kernel)
  · unfold encodeReport Yaml.entries
    dsimp only
    repeat' (first | exact fun _ h => absurd h List.not_mem_nil | (refine List.forall_mem_cons.mpr ⟨?_, ?_⟩))
    all_goals
      intro m' h
      dsimp only at h
      first
      | exact absurd h (by simp)
      | (unfold encodeScheme at h; injection h with h; subst h; exact once_encodeScheme _)
      | (unfold encodeVersion at h; injection h with h; subst h; exact once_encodeVersion _)

/-- closes goals on the value under a key, the key at place `n` -/
macro "at_key" n:num k:str : tactic => `(tactic| (
  refine ⟨yamlKey $k, ?_, by decide +kernel⟩
  iterate $n (apply List.mem_cons_of_mem)
  exact List.mem_cons_self))

instance (a b : Str) : Decidable (Spec.Spells a b) := inferInstanceAs (Decidable (_ = _))

theorem each_map {α β : Type} {R : α → β → Prop} (g : β → α) : ∀ (l : List β), (∀ b ∈ l, R (g b) b) → Each R (l.map g) l
  | [], _ => .nil
  | b :: l, h => .cons (h b List.mem_cons_self) (each_map g l fun x hx => h x (List.mem_cons_of_mem _ hx))

/-- a number fits in Go's `int` -/
def Spec.Int64 (i : Int) : Prop := -2 ^ 63 ≤ i ∧ i < 2 ^ 63

/-- what a report holds because of the types of its fields: numbers of 64 bits, and tags that were parsed from text (pyinspect.go:82-87
reads them with tags.go:49-56 `UnmarshalText`) -/
structure Spec.Typed (r : Report) : Prop where
  uid : Spec.Int64 r.owner.uid
  gid : Spec.Int64 r.owner.gid
  major : Spec.Int64 r.version.major
  minor : Spec.Int64 r.version.minor
  micro : Spec.Int64 r.version.micro
  serial : Spec.Int64 r.version.serial
  tags : ∀ t ∈ r.tags, ∃ s, Pep425.parseTag s = .ok t

/-- the platform of a report -/
def Spec.ofReport (r : Report) : PlatFile :=
  { consoleShebang := r.consoleShebang, graphicalShebang := r.graphicalShebang, scheme := r.scheme, uid := r.owner.uid, gid := r.owner.gid,
    uname := r.owner.uname, gname := r.owner.gname, versionInfo := some r.version, magicNumber := r.magicNumber, tags := r.tags,
    pyCompile := r.pyCompile }

theorem encodeScheme_is (s : Scheme) : IsScheme (encodeScheme s).entries s where
  known := by
    unfold encodeScheme Yaml.entries
    dsimp only
    refine List.forall_mem_cons.mpr ⟨⟨"purelib", by simp, by dsimp only; decide +kernel⟩, ?_⟩
    refine List.forall_mem_cons.mpr ⟨⟨"platlib", by simp, by dsimp only; decide +kernel⟩, ?_⟩
    refine List.forall_mem_cons.mpr ⟨⟨"headers", by simp, by dsimp only; decide +kernel⟩, ?_⟩
    refine List.forall_mem_cons.mpr ⟨⟨"scripts", by simp, by dsimp only; decide +kernel⟩, ?_⟩
    refine List.forall_mem_cons.mpr ⟨⟨"data", by simp, by dsimp only; decide +kernel⟩, ?_⟩
    exact fun _ h => absurd h List.not_mem_nil
  purelib := .inl (.inl (by at_key 0 "PureLib"))
  platlib := .inl (.inl (by at_key 1 "PlatLib"))
  headers := .inl (.inl (by at_key 2 "Headers"))
  scripts := .inl (.inl (by at_key 3 "Scripts"))
  data := .inl (.inl (by at_key 4 "Data"))

theorem encodeVersion_is (v : VersionInfo) (h1 : Spec.Int64 v.major) (h2 : Spec.Int64 v.minor) (h3 : Spec.Int64 v.micro)
    (h4 : Spec.Int64 v.serial) : IsVersion (encodeVersion v).entries v where
  known := by
    unfold encodeVersion Yaml.entries
    dsimp only
    refine List.forall_mem_cons.mpr ⟨⟨"major", by simp, by dsimp only; decide +kernel⟩, ?_⟩
    refine List.forall_mem_cons.mpr ⟨⟨"minor", by simp, by dsimp only; decide +kernel⟩, ?_⟩
    refine List.forall_mem_cons.mpr ⟨⟨"micro", by simp, by dsimp only; decide +kernel⟩, ?_⟩
    refine List.forall_mem_cons.mpr ⟨⟨"releaselevel", by simp, by dsimp only; decide +kernel⟩, ?_⟩
    refine List.forall_mem_cons.mpr ⟨⟨"serial", by simp, by dsimp only; decide +kernel⟩, ?_⟩
    exact fun _ h => absurd h List.not_mem_nil
  major := .inl ⟨.inl (by at_key 0 "Major"), h1⟩
  minor := .inl ⟨.inl (by at_key 1 "Minor"), h2⟩
  micro := .inl ⟨.inl (by at_key 2 "Micro"), h3⟩
  level := .inl (.inl (by at_key 3 "ReleaseLevel"))
  serial := .inl ⟨.inl (by at_key 4 "Serial"), h4⟩

theorem encodeReport_is (b64 : Str → Option (List UInt8)) (r : Report) (h : Spec.Typed r) :
    IsPlatform b64 (encodeReport r).entries (Spec.ofReport r) where
  known := by
    unfold encodeReport Yaml.entries
    dsimp only
    refine List.forall_mem_cons.mpr ⟨⟨"ConsoleShebang", by simp, by dsimp only; decide +kernel⟩, ?_⟩
    refine List.forall_mem_cons.mpr ⟨⟨"GraphicalShebang", by simp, by dsimp only; decide +kernel⟩, ?_⟩
    refine List.forall_mem_cons.mpr ⟨⟨"Scheme", by simp, by dsimp only; decide +kernel⟩, ?_⟩
    refine List.forall_mem_cons.mpr ⟨⟨"UID", by simp, by dsimp only; decide +kernel⟩, ?_⟩
    refine List.forall_mem_cons.mpr ⟨⟨"GID", by simp, by dsimp only; decide +kernel⟩, ?_⟩
    refine List.forall_mem_cons.mpr ⟨⟨"UName", by simp, by dsimp only; decide +kernel⟩, ?_⟩
    refine List.forall_mem_cons.mpr ⟨⟨"GName", by simp, by dsimp only; decide +kernel⟩, ?_⟩
    refine List.forall_mem_cons.mpr ⟨⟨"VersionInfo", by simp, by dsimp only; decide +kernel⟩, ?_⟩
    refine List.forall_mem_cons.mpr ⟨⟨"MagicNumber", by simp, by dsimp only; decide +kernel⟩, ?_⟩
    refine List.forall_mem_cons.mpr ⟨⟨"Tags", by simp, by dsimp only; decide +kernel⟩, ?_⟩
    refine List.forall_mem_cons.mpr ⟨⟨"PyCompile", by simp, by dsimp only; decide +kernel⟩, ?_⟩
    exact fun _ h => absurd h List.not_mem_nil
  console := .inl (.inl (by at_key 0 "ConsoleShebang"))
  graphical := .inl (.inl (by at_key 1 "GraphicalShebang"))
  scheme := .inl ⟨(encodeScheme r.scheme).entries, .inl (by at_key 2 "Scheme"), encodeScheme_is r.scheme⟩
  uid := .inl ⟨.inl (by at_key 3 "UID"), h.uid⟩
  gid := .inl ⟨.inl (by at_key 4 "GID"), h.gid⟩
  uname := .inl (.inl (by at_key 5 "UName"))
  gname := .inl (.inl (by at_key 6 "GName"))
  version := .inl ⟨(encodeVersion r.version).entries, r.version, .inl (by at_key 7 "VersionInfo"), rfl, encodeVersion_is r.version h.major h.minor h.micro h.serial⟩
  magic := .inl ⟨r.magicNumber.map fun b => .int b.toNat, .inl (by at_key 8 "MagicNumber"), each_map _ _ fun b _ => .inl rfl⟩
  tags := .inl ⟨r.tags.map fun t => .str t.string, .inl (by at_key 9 "Tags"), each_map _ _ fun t ht => by
    obtain ⟨s, hs⟩ := h.tags t ht
    refine .inl ⟨rfl, (Pep425.C30_round_trip.1 t).mp ?_⟩
    rw [Pep425.C30_round_trip.2 s t hs]
    exact hs⟩
  pyCompile := .inl ⟨r.pyCompile.map .str, .inl (by at_key 10 "PyCompile"), each_map _ _ fun w _ => .inl rfl⟩

/-- **C130**: what `ocibuild python inspect` writes is read by `ocibuild layer wheel` as the same platform, although the two use
different libraries, which name the fields differently. -/
theorem C130_round_trip (b64 : Str → Option (List UInt8)) (r : Report) (h : Spec.Typed r) :
    decodePlatform b64 (encodeReport r) = some (Spec.ofReport r) :=
  (C130_reads b64 (encodeReport r).entries (plain_encodeReport r) (Spec.ofReport r)).mpr (encodeReport_is b64 r h)

/-- **C130**: `ocibuild layer wheel` never fails on what `ocibuild python inspect` has written but for the compiler: it finds the program
that was reported and runs it as it was reported, for the platform that was reported.  `emit` and `env.parse` are the writer and the
parser of YAML; what is assumed of them is that this document survives them. -/
theorem C130_inspect (ienv : InspectEnv) (interpreter : Str) (r : Report) (hr : inspect ienv interpreter = some r) (ht : Spec.Typed r)
    (env : WheelEnv) (emit : Yaml → List UInt8) (hy : env.parse (emit (encodeReport r)) = some (encodeReport r)) :
    ∃ name, r.pyCompile = [name, "-m".toList, "compileall".toList] ∧
      (∀ exe path, env.look name = some exe → env.abs exe = some path →
        wheelPlatform env (emit (encodeReport r)) = some (.ok (Spec.ofReport r, path, ["-m".toList, "compileall".toList]))) ∧
      (∀ res, wheelPlatform env (emit (encodeReport r)) = some (.ok res) → ∃ exe, env.look name = some exe ∧ env.abs exe = some res.2.1) ∧
      wheelPlatform env (emit (encodeReport r)) ≠ none := by
  have hw : ∃ name, r.pyCompile = [name, "-m".toList, "compileall".toList] := by
    obtain ⟨dyn, _, _, _, _, _, _, _, h1, h2⟩ := ((C97_inspect ienv interpreter r).mp hr).facts
    by_cases hi : ienv.image = none
    · exact ⟨_, h1 hi⟩
    · obtain ⟨path, h, _⟩ := h2 hi
      exact ⟨path, h⟩
  obtain ⟨name, hname⟩ := hw
  have hd := C130_round_trip env.b64 r ht
  have hp : (Spec.ofReport r).pyCompile = [name, "-m".toList, "compileall".toList] := hname
  have key : wheelPlatform env (emit (encodeReport r)) =
      match lookupCompiler env.look env.abs (Spec.ofReport r).pyCompile with
      | none => none
      | some (.error _) => some (.error ())
      | some (.ok (exe, words)) => some (.ok (Spec.ofReport r, exe, words)) := by
    rw [wheelPlatform, hy]
    simp only
    rw [hd]
    rfl
  rw [key, hp, lookupCompiler]
  refine ⟨name, hname, ?_, ?_, ?_⟩
  · intro exe path h1 h2
    rw [h1]
    simp only
    rw [h2]
  · intro res h
    cases h1 : env.look name with
    | none => rw [h1] at h; cases h
    | some exe =>
      rw [h1] at h
      simp only at h
      cases h2 : env.abs exe with
      | none => rw [h2] at h; cases h
      | some path =>
        rw [h2] at h
        simp only [Option.some.injEq, Except.ok.injEq] at h
        subst h
        exact ⟨exe, rfl, h2⟩
  · intro h
    cases h1 : env.look name with
    | none => rw [h1] at h; cases h
    | some exe =>
      rw [h1] at h
      simp only at h
      cases h2 : env.abs exe with
      | none => rw [h2] at h; cases h
      | some path => rw [h2] at h; cases h

theorem lookupCompiler_none (look abs : Str → Option Str) (l : List Str) : lookupCompiler look abs l = none ↔ l = [] := by
  cases l with
  | nil => simp [lookupCompiler]
  | cons name words =>
    rw [lookupCompiler]
    cases look name with
    | none => simp
    | some exe =>
      simp only
      cases abs exe with
      | none => simp
      | some path => simp

/-- **C130** (partial: the file must name a command): `ocibuild layer wheel` does not panic on a platform file, except on one that it
accepts and that names no command to compile with. -/
theorem C130_no_panic_partial (env : WheelEnv) (file : List UInt8) : wheelPlatform env file = none ↔
    ∃ y p, env.parse file = some y ∧ decodePlatform env.b64 y = some p ∧ p.pyCompile = [] := by
  rw [wheelPlatform]
  cases h1 : env.parse file with
  | none => simp
  | some y =>
    simp only
    cases h2 : decodePlatform env.b64 y with
    | none => simp [h2]
    | some p =>
      have e : (∃ y' p', some y = some y' ∧ decodePlatform env.b64 y' = some p' ∧ p'.pyCompile = []) ↔ p.pyCompile = [] := by
        constructor
        · rintro ⟨y', p', h3, h4, h5⟩
          cases h3
          rw [h2] at h4
          cases h4
          exact h5
        · exact fun h => ⟨y, p, rfl, h2, h⟩
      rw [e, ← lookupCompiler_none env.look env.abs p.pyCompile]
      simp only
      rcases lookupCompiler env.look env.abs p.pyCompile with _ | _ | ⟨exe, words⟩ <;> simp

/-- the file of the help text of `ocibuild layer wheel`, cmd_layer_wheel.go:32-58 -/
def exFile : List (Str × Yaml) :=
  [("ConsoleShebang".toList, .str "/usr/bin/python3.9".toList), ("GraphicalShebang".toList, .str "/usr/bin/python3.9".toList),
   ("Scheme".toList, .map [("purelib".toList, .str "/usr/lib/python3.9/site-packages".toList),
     ("platlib".toList, .str "/usr/lib/python3.9/site-packages".toList), ("headers".toList, .str "/usr/include/site/python3.9/".toList),
     ("scripts".toList, .str "/usr/bin".toList), ("data".toList, .str "/usr".toList)]),
   ("UID".toList, .int 0), ("GID".toList, .int 0), ("UName".toList, .str "root".toList), ("GName".toList, .str "root".toList),
   ("PyCompile".toList, .seq [.str "python3.9".toList, .str "-m".toList, .str "compileall".toList])]

/-- **C130**: the full statement fails.  A platform file that is complete but for `PyCompile`, such as the file of the help text without
its last line, and an empty file crash the program (`cmdline[0]`, py_compile.go:41): the file is accepted, and no error is reported. -/
theorem C130_violated (env : WheelEnv) (empty short : List UInt8) (he : env.parse empty = some .null)
    (hs : env.parse short = some (.map exFile.dropLast)) : wheelPlatform env empty = none ∧ wheelPlatform env short = none := by
  constructor
  · rw [wheelPlatform, he]; rfl
  · rw [wheelPlatform, hs]; rfl

/-! ## Examples -/

theorem plain_exFile : Spec.Plain exFile := by
  refine ⟨once_of_fold (by decide +kernel), ?_⟩
  unfold exFile
  repeat' (first | exact fun _ h => absurd h List.not_mem_nil | (refine List.forall_mem_cons.mpr ⟨?_, ?_⟩))
  all_goals
    intro m' h
    dsimp only at h
    cases h
    try exact once_of_fold (by decide +kernel)

/-- the file of the help text is accepted, and is the platform one would expect -/
example : Spec.IsPlatform (fun _ => none) exFile
    { consoleShebang := "/usr/bin/python3.9".toList, graphicalShebang := "/usr/bin/python3.9".toList,
      scheme := ⟨"/usr/lib/python3.9/site-packages".toList, "/usr/lib/python3.9/site-packages".toList,
        "/usr/include/site/python3.9/".toList, "/usr/bin".toList, "/usr".toList⟩,
      uid := 0, gid := 0, uname := "root".toList, gname := "root".toList, versionInfo := none, magicNumber := [], tags := [],
      pyCompile := ["python3.9".toList, "-m".toList, "compileall".toList] } :=
  (C130_reads _ exFile plain_exFile _).mp (by rfl)

/-- a misspelt key is refused -/
example : decodePlatform (fun _ => none) (.map (("UserName".toList, .str "root".toList) :: exFile)) = none :=
  C130_unknown _ _ "UserName".toList _ List.mem_cons_self (by decide +kernel)

/-- a user name that YAML takes for a number is refused, but such a word of the command is not -/
example : decodePlatform (fun _ => none) (.map [("UName".toList, .int 1000)]) = none ∧
    (decodePlatform (fun _ => none) (.map [("pycompile".toList, .seq [.str "python".toList, .int 3])])).map (·.pyCompile) =
      some ["python".toList, "3".toList] := ⟨by rfl, by decide +kernel⟩

/-- a report, and the environment that it comes from -/
def exDyn : Dyn := ⟨"Yg0NCg==".toList, [⟨"cp39".toList, "cp39".toList, "linux_x86_64".toList⟩], ⟨3, 9, 7, "final".toList, 0⟩,
  ⟨"/usr/lib/python3.9/site-packages".toList, "/usr/lib/python3.9/site-packages".toList, "/usr/include/python3.9".toList,
    "/usr/bin".toList, "/usr".toList⟩⟩

def exInspect : InspectEnv where
  lookPath s := if s = "python3".toList then some "/usr/bin/python3".toList else none
  stat s := if s = "/usr".toList then some ⟨0, 0, "root".toList, "root".toList⟩ else none
  native s := if s = "/usr/bin/python3".toList then some exDyn else none
  image := none
  hostLook _ := none
  decode _ := some [98, 13, 13, 10]

def exReport : Report := ⟨"/usr/bin/python3".toList, "/usr/bin/python3".toList, exDyn.scheme, ⟨0, 0, "root".toList, "root".toList⟩,
  exDyn.version, [98, 13, 13, 10], exDyn.tags, ["/usr/bin/python3".toList, "-m".toList, "compileall".toList]⟩

theorem exReport_typed : Spec.Typed exReport := by
  refine ⟨?_, ?_, ?_, ?_, ?_, ?_, ?_⟩
  all_goals try (constructor <;> decide)
  intro t ht
  obtain rfl := List.mem_singleton.mp ht
  exact ⟨"cp39-cp39-linux_x86_64".toList, by rfl⟩

example : decodePlatform (fun _ => none) (encodeReport exReport) = some (Spec.ofReport exReport) :=
  C130_round_trip _ exReport exReport_typed

example : ∃ r, inspect exInspect "python3".toList = some r ∧ r = exReport ∧ Spec.Typed r := ⟨_, by rfl, rfl, exReport_typed⟩

end Python
