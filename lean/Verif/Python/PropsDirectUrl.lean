import Verif.Python.PropsJson
/-! C89: what direct_url.json says. -/
namespace Python.Json
open Go Spec

namespace Spec

/-- the text of a string -/
def StringText (t : Str) : Prop := ∃ b, Body b ∧ t = '"' :: (b ++ ['"'])

/-- the text of `true`, `false`, `null` or a number: without the characters that have a meaning in JSON -/
def WordText (t : Str) : Prop := t ≠ [] ∧ ∀ c ∈ t, c ∉ ['"', ' ', ',', ':', '[', ']', '{', '}']

mutual
/-- all scalars are strings or words, and all names are strings -/
def Json : Value → Prop
  | .scalar t => StringText t ∨ WordText t
  | .arr vs => JsonA vs
  | .obj ms => JsonM ms
def JsonA : List Value → Prop
  | [] => True
  | v :: vs => Json v ∧ JsonA vs
def JsonM : List (Str × Value) → Prop
  | [] => True
  | (k, v) :: ms => StringText k ∧ Json v ∧ JsonM ms
end

/-- the value of a member of an object, if it is there -/
def member (name : String) : Value → Option Value
  | .obj ms => (ms.find? (fun e => e.1 = quote name.toList)).map (·.2)
  | _ => none

/-- the names of the members of an object -/
def names : Value → List Str
  | .obj ms => ms.map (·.1)
  | _ => []

end Spec

/-! ### JSON texts can be read in one way only -/

theorem body_unique {b : Str} (h : Body b) : ∀ {b' r r' : Str}, Body b' → b ++ '"' :: r = b' ++ '"' :: r' → b = b' ∧ r = r' := by
  induction h with
  | nil =>
    intro b' r r' h' e
    cases h' with
    | nil => exact ⟨rfl, by simpa using e⟩
    | char h1 _ _ => simp only [List.nil_append, List.cons_append, List.cons.injEq] at e; exact absurd e.1.symm h1
    | esc _ => simp only [List.nil_append, List.cons_append, List.cons.injEq] at e; exact absurd e.1 (by decide)
  | char h1 h2 _ ih =>
    intro b' r r' h' e
    cases h' with
    | nil => simp only [List.nil_append, List.cons_append, List.cons.injEq] at e; exact absurd e.1 h1
    | char _ _ h3 =>
      simp only [List.cons_append, List.cons.injEq] at e
      obtain ⟨rfl, rfl⟩ := ih h3 e.2
      exact ⟨by rw [e.1], rfl⟩
    | esc _ => simp only [List.cons_append, List.cons.injEq] at e; exact absurd e.1 h2
  | esc _ ih =>
    intro b' r r' h' e
    cases h' with
    | nil => simp only [List.nil_append, List.cons_append, List.cons.injEq] at e; exact absurd e.1 (by decide)
    | char _ h2 _ => simp only [List.cons_append, List.cons.injEq] at e; exact absurd e.1.symm h2
    | esc h3 =>
      simp only [List.cons_append, List.cons.injEq] at e
      obtain ⟨rfl, rfl⟩ := ih h3 e.2.2
      exact ⟨by rw [e.2.1], rfl⟩

theorem string_unique {t t' r r' : Str} (h : StringText t) (h' : StringText t') (e : t ++ r = t' ++ r') : t = t' ∧ r = r' := by
  obtain ⟨b, hb, rfl⟩ := h
  obtain ⟨b', hb', rfl⟩ := h'
  simp only [List.cons_append, List.append_assoc, List.nil_append, List.cons.injEq, true_and] at e
  obtain ⟨rfl, rfl⟩ := body_unique hb hb' e
  exact ⟨rfl, rfl⟩

/-- what may follow a value -/
def Ends (r : Str) : Prop := ∀ c, r.head? = some c → c ∈ [',', ']', '}']

theorem word_unique : ∀ {t t' r r' : Str}, (∀ c ∈ t, c ∉ ['"', ' ', ',', ':', '[', ']', '{', '}']) →
    (∀ c ∈ t', c ∉ ['"', ' ', ',', ':', '[', ']', '{', '}']) → Ends r → Ends r' → t ++ r = t' ++ r' → t = t' ∧ r = r'
  | [], [], _, _, _, _, _, _, e => ⟨rfl, e⟩
  | [], c :: t', r, r', _, h2, hr, _, e => by
    rw [List.nil_append] at e
    subst e
    have := hr c rfl
    exact absurd (by revert this; simp; rintro (h | h | h) <;> simp [h]) (h2 c (by simp))
  | c :: t, [], r, r', h1, _, _, hr', e => by
    rw [List.nil_append] at e
    subst e
    have := hr' c rfl
    exact absurd (by revert this; simp; rintro (h | h | h) <;> simp [h]) (h1 c (by simp))
  | c :: t, d :: t', r, r', h1, h2, hr, hr', e => by
    simp only [List.cons_append, List.cons.injEq] at e
    obtain ⟨rfl, rfl⟩ := word_unique (fun c hc => h1 c (List.mem_cons_of_mem _ hc)) (fun c hc => h2 c (List.mem_cons_of_mem _ hc)) hr hr' e.2
    exact ⟨by rw [e.1], rfl⟩

/-- the first character of a value -/
def firstChar : Value → Char
  | .scalar t => t.headD '?'
  | .arr _ => '['
  | .obj _ => '{'

theorem compact_first {v : Value} (h : Json v) : ∃ t, compact v = firstChar v :: t := by
  cases v with
  | scalar t =>
    rcases h with ⟨b, _, rfl⟩ | ⟨h, _⟩
    · exact ⟨_, rfl⟩
    · cases t with
      | nil => exact absurd rfl h
      | cons c t => exact ⟨t, rfl⟩
  | arr vs => exact ⟨_, by simp only [compact, text]; rfl⟩
  | obj ms => exact ⟨_, by simp only [compact, text]; rfl⟩

theorem firstChar_ne {v : Value} (h : Json v) : firstChar v ∉ [' ', ',', ':', ']', '}'] := by
  cases v with
  | scalar t =>
    rcases h with ⟨b, _, rfl⟩ | ⟨h, h2⟩
    · simp [firstChar]
    · cases t with
      | nil => exact absurd rfl h
      | cons c t =>
        have := h2 c (by simp)
        simp only [firstChar, List.headD_cons]
        intro hc
        exact this (by revert hc; simp; rintro (h | h | h | h | h) <;> simp [h])
  | arr vs => simp [firstChar]
  | obj ms => simp [firstChar]

theorem scalar_first {t : Str} (h : Json (.scalar t)) : firstChar (.scalar t) ∉ ['[', '{'] := by
  rcases h with ⟨b, _, rfl⟩ | ⟨h, h2⟩
  · simp [firstChar]
  · cases t with
    | nil => exact absurd rfl h
    | cons c t =>
      have := h2 c (by simp)
      simp only [firstChar, List.headD_cons]
      intro hc
      exact this (by revert hc; simp; rintro (h | h) <;> simp [h])

theorem compact_arr (vs : List Value) : compact (.arr vs) = '[' :: (compactA true vs ++ [']']) := by simp [compact, text, compactA]
theorem compact_obj (ms : List (Str × Value)) : compact (.obj ms) = '{' :: (compactM true ms ++ ['}']) := by simp [compact, text, compactM]
theorem compactA_nil (f : Bool) : compactA f [] = [] := by cases f <;> simp [compactA, texts, join, tailed]
theorem compactM_nil (f : Bool) : compactM f [] = [] := by cases f <;> simp [compactM, members, join, tailed]

theorem ends_arr (vs : List Value) (r : Str) : Ends (compactA false vs ++ ']' :: r) := by
  intro c hc
  cases vs with
  | nil => rw [compactA_nil] at hc; simp at hc; simp [← hc]
  | cons v vs => rw [compactA_cons] at hc; simp at hc; simp [← hc]

theorem ends_obj (ms : List (Str × Value)) (r : Str) : Ends (compactM false ms ++ '}' :: r) := by
  intro c hc
  cases ms with
  | nil => rw [compactM_nil] at hc; simp at hc; simp [← hc]
  | cons m ms => obtain ⟨k, v⟩ := m; rw [compactM_cons] at hc; simp at hc; simp [← hc]

mutual
/-- a value can be read in one way only -/
theorem value_unique : ∀ (v v' : Value) {r r' : Str}, Json v → Json v' → Ends r → Ends r' → compact v ++ r = compact v' ++ r' → v = v' ∧ r = r'
  | .scalar t, v', r, r', h, h', hr, hr', e => by
    cases v' with
    | scalar t' =>
      have e : t ++ r = t' ++ r' := by simpa [compact, text] using e
      rcases h with h | h <;> rcases h' with h' | h'
      · obtain ⟨rfl, rfl⟩ := string_unique h h' e; exact ⟨rfl, rfl⟩
      · obtain ⟨b, _, rfl⟩ := h
        obtain ⟨h1, h2⟩ := h'
        cases t' with
        | nil => exact absurd rfl h1
        | cons c t' =>
          simp only [List.cons_append, List.cons.injEq] at e
          exact absurd (by simp [← e.1]) (h2 c (by simp))
      · obtain ⟨b, _, rfl⟩ := h'
        obtain ⟨h1, h2⟩ := h
        cases t with
        | nil => exact absurd rfl h1
        | cons c t =>
          simp only [List.cons_append, List.cons.injEq] at e
          exact absurd (by simp [e.1]) (h2 c (by simp))
      · obtain ⟨rfl, rfl⟩ := word_unique h.2 h'.2 hr hr' e; exact ⟨rfl, rfl⟩
    | arr vs =>
      obtain ⟨x, hx⟩ := compact_first h
      rw [hx, compact_arr] at e
      simp only [List.cons_append, List.cons.injEq] at e
      exact absurd (by simp [e.1]) (scalar_first h)
    | obj ms =>
      obtain ⟨x, hx⟩ := compact_first h
      rw [hx, compact_obj] at e
      simp only [List.cons_append, List.cons.injEq] at e
      exact absurd (by simp [e.1]) (scalar_first h)
  | .arr vs, v', r, r', h, h', hr, hr', e => by
    cases v' with
    | scalar t' =>
      obtain ⟨x, hx⟩ := compact_first h'
      rw [hx, compact_arr] at e
      simp only [List.cons_append, List.cons.injEq] at e
      exact absurd (by simp [← e.1]) (scalar_first h')
    | arr vs' =>
      rw [compact_arr, compact_arr] at e
      simp only [List.cons_append, List.append_assoc, List.nil_append, List.cons.injEq, true_and] at e
      obtain ⟨rfl, rfl⟩ := arr_unique vs vs' true h h' e
      exact ⟨rfl, rfl⟩
    | obj ms =>
      rw [compact_arr, compact_obj] at e
      simp only [List.cons_append, List.cons.injEq] at e
      exact absurd e.1 (by decide)
  | .obj ms, v', r, r', h, h', hr, hr', e => by
    cases v' with
    | scalar t' =>
      obtain ⟨x, hx⟩ := compact_first h'
      rw [hx, compact_obj] at e
      simp only [List.cons_append, List.cons.injEq] at e
      exact absurd (by simp [← e.1]) (scalar_first h')
    | arr vs' =>
      rw [compact_arr, compact_obj] at e
      simp only [List.cons_append, List.cons.injEq] at e
      exact absurd e.1 (by decide)
    | obj ms' =>
      rw [compact_obj, compact_obj] at e
      simp only [List.cons_append, List.append_assoc, List.nil_append, List.cons.injEq, true_and] at e
      obtain ⟨rfl, rfl⟩ := obj_unique ms ms' true h h' e
      exact ⟨rfl, rfl⟩
theorem arr_unique : ∀ (vs vs' : List Value) {r r' : Str} (first : Bool), JsonA vs → JsonA vs' →
    compactA first vs ++ ']' :: r = compactA first vs' ++ ']' :: r' → vs = vs' ∧ r = r'
  | [], vs', r, r', first, h, h', e => by
    cases vs' with
    | nil => rw [compactA_nil] at e; exact ⟨rfl, by simpa using e⟩
    | cons v' vs' =>
      rw [compactA_nil, compactA_cons] at e
      cases first with
      | false => simp at e
      | true =>
        obtain ⟨x, hx⟩ := compact_first h'.1
        rw [hx] at e
        simp at e
        exact absurd (by simp [← e.1]) (firstChar_ne h'.1)
  | v :: vs, vs', r, r', first, h, h', e => by
    cases vs' with
    | nil =>
      rw [compactA_nil, compactA_cons] at e
      cases first with
      | false => simp at e
      | true =>
        obtain ⟨x, hx⟩ := compact_first h.1
        rw [hx] at e
        simp at e
        exact absurd (by simp [e.1]) (firstChar_ne h.1)
    | cons v' vs' =>
      rw [compactA_cons, compactA_cons] at e
      simp only [List.append_assoc] at e
      have e1 := List.append_cancel_left e
      have e2 := value_unique v v' h.1 h'.1 (ends_arr _ _) (ends_arr _ _) e1
      have e3 := arr_unique vs vs' false h.2 h'.2 e2.2
      exact ⟨by rw [e2.1, e3.1], e3.2⟩
theorem obj_unique : ∀ (ms ms' : List (Str × Value)) {r r' : Str} (first : Bool), JsonM ms → JsonM ms' →
    compactM first ms ++ '}' :: r = compactM first ms' ++ '}' :: r' → ms = ms' ∧ r = r'
  | [], ms', r, r', first, h, h', e => by
    cases ms' with
    | nil => rw [compactM_nil] at e; exact ⟨rfl, by simpa using e⟩
    | cons m' ms' =>
      obtain ⟨k', v'⟩ := m'
      rw [compactM_nil, compactM_cons] at e
      cases first with
      | false => simp at e
      | true =>
        obtain ⟨b, _, hb⟩ := h'.1
        rw [hb] at e
        simp at e
  | (k, v) :: ms, ms', r, r', first, h, h', e => by
    cases ms' with
    | nil =>
      rw [compactM_nil, compactM_cons] at e
      cases first with
      | false => simp at e
      | true =>
        obtain ⟨b, _, hb⟩ := h.1
        rw [hb] at e
        simp at e
    | cons m' ms' =>
      obtain ⟨k', v'⟩ := m'
      rw [compactM_cons, compactM_cons] at e
      simp only [List.append_assoc] at e
      have e1 := List.append_cancel_left e
      have e2 := string_unique h.1 h'.1 e1
      have e3 := value_unique v v' h.2.1 h'.2.1 (ends_obj _ _) (ends_obj _ _) (List.append_cancel_left e2.2)
      have e4 := obj_unique ms ms' false h.2.2 h'.2.2 e3.2
      exact ⟨by rw [e2.1, e3.1, e4.1], e4.2⟩
end

/-- two values with the same text are the same -/
theorem compact_inj {v v' : Value} (h : Json v) (h' : Json v') (e : compact v = compact v') : v = v' :=
  (value_unique v v' (r := []) (r' := []) h h' (fun c hc => (nomatch hc)) (fun c hc => (nomatch hc)) (by rw [e])).1

/-! ### direct_url.json -/

namespace Spec

/-- all strings of a `DirectURL` are strings -/
def UrlTexts (d : DirectURL) : Prop :=
  StringText d.url ∧ (∀ h, d.archiveInfo = some (some h) → StringText h) ∧
  ∀ i, d.vcsInfo = some i → StringText i.vcs ∧ StringText i.commitID ∧ ∀ r, i.requestedRevision = some r → StringText r

end Spec

theorem quote_inj {a b : Str} : quote a = quote b ↔ a = b := by
  unfold quote
  constructor
  · intro h
    simp only [List.cons.injEq, true_and] at h
    exact List.append_cancel_right h
  · rintro rfl; rfl

/-- the document of an `ArchiveInfo` -/
def archiveDoc : Option Str → Value
  | none => .obj []
  | some h => .obj [(quote "hash".toList, .scalar h)]
/-- the document of a `DirInfo` -/
def dirDoc : Bool → Value
  | false => .obj []
  | true => .obj [(quote "editable".toList, .scalar "true".toList)]
/-- the document of a `VCSInfo` -/
def vcsDoc : VCSInfo → Value
  | ⟨v, none, c⟩ => .obj [(quote "commit_id".toList, .scalar c), (quote "vcs".toList, .scalar v)]
  | ⟨v, some r, c⟩ => .obj [(quote "commit_id".toList, .scalar c), (quote "requested_revision".toList, .scalar r), (quote "vcs".toList, .scalar v)]

theorem member_url (d : DirectURL) : member "url" d.doc = some (.scalar d.url) := by
  obtain ⟨url, vcs, ar, di⟩ := d
  rcases ar with _ | _ | h <;> rcases di with _ | _ | _ <;> rfl
theorem member_archive (d : DirectURL) : member "archive_info" d.doc = d.archiveInfo.map archiveDoc := by
  obtain ⟨url, vcs, ar, di⟩ := d
  rcases vcs with _ | ⟨v, r | r, c⟩ <;> rcases ar with _ | _ | h <;> rcases di with _ | _ | _ <;> rfl
theorem member_dir (d : DirectURL) : member "dir_info" d.doc = d.dirInfo.map dirDoc := by
  obtain ⟨url, vcs, ar, di⟩ := d
  rcases vcs with _ | ⟨v, r | r, c⟩ <;> rcases ar with _ | _ | h <;> rcases di with _ | _ | _ <;> rfl
theorem member_vcs (d : DirectURL) : member "vcs_info" d.doc = d.vcsInfo.map vcsDoc := by
  obtain ⟨url, vcs, ar, di⟩ := d
  rcases vcs with _ | ⟨v, r | r, c⟩ <;> rcases ar with _ | _ | h <;> rcases di with _ | _ | _ <;> rfl
theorem names_doc (d : DirectURL) :
    (names d.doc).Sublist [quote "archive_info".toList, quote "dir_info".toList, quote "url".toList, quote "vcs_info".toList] := by
  obtain ⟨url, vcs, ar, di⟩ := d
  have e : names (DirectURL.doc ⟨url, vcs, ar, di⟩) =
      (if ar.isSome then [quote "archive_info".toList] else []) ++ ((if di.isSome then [quote "dir_info".toList] else []) ++
        (quote "url".toList :: (if vcs.isSome then [quote "vcs_info".toList] else []))) := by
    rcases vcs with _ | _ <;> rcases ar with _ | _ | h <;> rcases di with _ | _ | _ <;> rfl
  rw [e]
  generalize ar.isSome = a, di.isSome = b, vcs.isSome = c
  revert a b c
  decide
theorem hash_archive (a : Option Str) : member "hash" (archiveDoc a) = a.map .scalar := by cases a <;> rfl
theorem editable_dir (b : Bool) : member "editable" (dirDoc b) = (if b then some (.scalar "true".toList) else none) := by cases b <;> rfl
theorem vcs_vcs (i : VCSInfo) : member "vcs" (vcsDoc i) = some (.scalar i.vcs) := by rcases i with ⟨v, _ | r, c⟩ <;> rfl
theorem commit_vcs (i : VCSInfo) : member "commit_id" (vcsDoc i) = some (.scalar i.commitID) := by rcases i with ⟨v, _ | r, c⟩ <;> rfl
theorem revision_vcs (i : VCSInfo) : member "requested_revision" (vcsDoc i) = i.requestedRevision.map .scalar := by
  rcases i with ⟨v, _ | r, c⟩ <;> rfl
theorem scalars_inj {a b : Option Str} (h : a.map Value.scalar = b.map Value.scalar) : a = b := by
  cases a <;> cases b <;> simp_all

/-- **C89**: the document has the URL; it has "archive_info" exactly if there is an `ArchiveInfo`, with "hash" exactly if there is a
hash; "dir_info" exactly if there is a `DirInfo`, with "editable" (true) exactly if it is; "vcs_info" exactly if there is a `VCSInfo`, with
"vcs", "commit_id", and "requested_revision" exactly if there is one.  There are no other members, none twice, and they are in the order of their names. -/
theorem C89_members (d : DirectURL) :
    member "url" d.doc = some (.scalar d.url) ∧
    (∀ a, d.archiveInfo = some a ↔ ∃ v, member "archive_info" d.doc = some v ∧ member "hash" v = a.map .scalar ∧ (names v).Sublist [quote "hash".toList]) ∧
    (∀ b, d.dirInfo = some b ↔ ∃ v, member "dir_info" d.doc = some v ∧ member "editable" v = (if b then some (.scalar "true".toList) else none) ∧
      (names v).Sublist [quote "editable".toList]) ∧
    (∀ i, d.vcsInfo = some i ↔ ∃ v, member "vcs_info" d.doc = some v ∧ member "vcs" v = some (.scalar i.vcs) ∧
      member "commit_id" v = some (.scalar i.commitID) ∧ member "requested_revision" v = i.requestedRevision.map .scalar ∧
      (names v).Sublist [quote "commit_id".toList, quote "requested_revision".toList, quote "vcs".toList]) ∧
    (names d.doc).Sublist [quote "archive_info".toList, quote "dir_info".toList, quote "url".toList, quote "vcs_info".toList] := by
  refine ⟨member_url d, ?_, ?_, ?_, names_doc d⟩
  · intro a
    rw [member_archive]
    constructor
    · intro h
      exact ⟨archiveDoc a, by rw [h]; rfl, hash_archive a, by cases a <;> simp [archiveDoc, names]⟩
    · rintro ⟨v, h, hv, _⟩
      obtain ⟨x, hx, rfl⟩ := Option.map_eq_some_iff.mp h
      rw [hash_archive] at hv
      rw [hx, scalars_inj hv]
  · intro b
    rw [member_dir]
    constructor
    · intro h
      exact ⟨dirDoc b, by rw [h]; rfl, editable_dir b, by cases b <;> simp [dirDoc, names]⟩
    · rintro ⟨v, h, hv, _⟩
      obtain ⟨x, hx, rfl⟩ := Option.map_eq_some_iff.mp h
      rw [editable_dir] at hv
      rw [hx]
      cases x <;> cases b <;> simp at hv <;> rfl
  · intro i
    rw [member_vcs]
    constructor
    · intro h
      refine ⟨vcsDoc i, by rw [h]; rfl, vcs_vcs i, commit_vcs i, revision_vcs i, ?_⟩
      rcases i with ⟨v, _ | r, c⟩
      · show List.Sublist [quote "commit_id".toList, quote "vcs".toList] _
        decide
      · exact List.Sublist.refl _
    · rintro ⟨v, h, h1, h2, h3, _⟩
      obtain ⟨x, hx, rfl⟩ := Option.map_eq_some_iff.mp h
      rw [vcs_vcs] at h1
      rw [commit_vcs] at h2
      rw [revision_vcs] at h3
      have e1 : x.vcs = i.vcs := by simpa using h1
      have e2 : x.commitID = i.commitID := by simpa using h2
      have e3 := scalars_inj h3
      rw [hx]
      obtain ⟨_, _, _⟩ := x
      obtain ⟨_, _, _⟩ := i
      simp_all

/-- two `DirectURL`s with the same document are the same -/
theorem doc_inj {d d' : DirectURL} (h : d.doc = d'.doc) : d = d' := by
  have h1 := C89_members d
  have h2 := C89_members d'
  rw [← h] at h2
  have e1 : d.url = d'.url := by have := h1.1.symm.trans h2.1; simpa using this
  have e2 : d.archiveInfo = d'.archiveInfo := Option.ext fun a => (h1.2.1 a).trans (h2.2.1 a).symm
  have e3 : d.dirInfo = d'.dirInfo := Option.ext fun a => (h1.2.2.1 a).trans (h2.2.2.1 a).symm
  have e4 : d.vcsInfo = d'.vcsInfo := Option.ext fun a => (h1.2.2.2.1 a).trans (h2.2.2.2.1 a).symm
  obtain ⟨_, _, _, _⟩ := d
  obtain ⟨_, _, _, _⟩ := d'
  simp_all

theorem stringText_quote {s : Str} (h : ∀ c ∈ s, c ≠ '"' ∧ c ≠ '\\') : StringText (quote s) := by
  refine ⟨s, ?_, rfl⟩
  induction s with
  | nil => exact .nil
  | cons c s ih => exact .char (h c (by simp)).1 (h c (by simp)).2 (ih fun x hx => h x (by simp [hx]))

theorem urlStrings {d : DirectURL} (h : UrlTexts d) : UrlStrings d :=
  ⟨.inr h.1, fun x hx => .inr (h.2.1 x hx),
    fun i hi => ⟨.inr (h.2.2 i hi).1, .inr (h.2.2 i hi).2.1, fun r hr => .inr ((h.2.2 i hi).2.2 r hr)⟩⟩

theorem doc_json {d : DirectURL} (hd : UrlTexts d) : Json d.doc := by
  have l2 : ∀ t ∈ ["archive_info".toList, "hash".toList, "dir_info".toList, "editable".toList, "url".toList,
      "vcs_info".toList, "commit_id".toList, "requested_revision".toList, "vcs".toList], StringText (quote t) :=
    fun t ht => stringText_quote (by revert t ht; decide +kernel)
  simp only [List.mem_cons, List.not_mem_nil, or_false, forall_eq_or_imp, forall_eq] at l2
  have l3 : WordText "true".toList := by unfold WordText; decide +kernel
  obtain ⟨url, vcs, ar, di⟩ := d
  obtain ⟨h1, h2, h3⟩ := hd
  rcases vcs with _ | ⟨v, r | r, c⟩ <;> rcases ar with _ | _ | h <;> rcases di with _ | _ | _ <;>
    simp_all [DirectURL.doc, Json, JsonM]

/-- **C89**: the text written for a `DirectURL` determines it: nothing that was given is lost, and no two different ones are written in
the same way. -/
theorem C89_recoverable {d d' : DirectURL} (hd : UrlTexts d) (hd' : UrlTexts d') (h : jsonDumps d.doc = jsonDumps d'.doc) : d = d' := by
  obtain ⟨o, h1, _, h2⟩ := C76_direct_url_partial d (urlStrings hd)
  obtain ⟨o', h1', _, h2'⟩ := C76_direct_url_partial d' (urlStrings hd')
  rw [h1, h1'] at h
  cases h
  exact doc_inj (compact_inj (doc_json hd) (doc_json hd') (h2.symm.trans h2'))

example : UrlTexts sampleUrl ∧ member "archive_info" sampleUrl.doc = some (.obj []) ∧ member "dir_info" sampleUrl.doc = none := by
  have l2 : ∀ t ∈ ["https://example.com/a b".toList, "git".toList, "v1".toList, "0a".toList], StringText (quote t) :=
    fun t ht => stringText_quote (by revert t ht; decide +kernel)
  simp only [List.mem_cons, List.not_mem_nil, or_false, forall_eq_or_imp, forall_eq] at l2
  refine ⟨⟨l2.1, ?_, ?_⟩, rfl, rfl⟩
  · intro h hh; cases hh
  · intro i hi
    cases hi
    exact ⟨l2.2.1, l2.2.2.2, fun r hr => by cases hr; exact l2.2.2.1⟩

end Python.Json
