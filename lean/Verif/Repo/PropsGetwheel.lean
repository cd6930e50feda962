import Verif.Repo.Client
import Verif.Repo.PropsClient
import Verif.Repo.PropsHtml
/-!
C95: `ocibuild python getwheel`.  C96: signatures.
-/
namespace Repo
open Go Repo.Spec Bdist Bdist.Spec

namespace Spec

/-- every part of the fragment can be decoded -/
def Readable (unescape : Str → Option Str) (frag : Str) : Prop := ∀ p ∈ split '&' frag, p = [] ∨ ∃ k v, Decodes unescape p k v

/-- the body served under a URL, with the location after redirects, if the checksums that the URL promises are right (they count
only if the whole fragment can be decoded: `C38_violated`) -/
def Fetched (net : Net) (url loc : Str) (body : List UInt8) : Prop :=
  ∃ r, net.doReq url = some (loc, r) ∧ r.status = 200 ∧ r.body = body ∧
    ∀ frag, net.fragment url = some frag → Readable net.unescape frag → ∀ k v, Promises net.unescape frag k v → net.digest k body = v

/-- the path `q` of the page of the project `name`, below the path `p` of the index: its name in the normal form of PEP 503 -/
def PagePath (p name q : Str) : Prop :=
  ∃ e, e ≠ [] ∧ (∀ c ∈ e, c ∈ "abcdefghijklmnopqrstuvwxyz0123456789-".toList) ∧ (∀ a b, e ≠ a ++ '-' :: '-' :: b) ∧ SameName e name ∧
    q = if p = [] ∨ clean p = ".".toList then e else if clean p = "/".toList then '/' :: e else clean p ++ '/' :: e

/-- the URL of the page of a project in an index; PyPI is the default -/
def PageURL (net : Net) (base name url : Str) : Prop :=
  ValidName name ∧ ∃ b p q, (base ≠ [] → b = base) ∧ (base = [] → b = "https://pypi.org/simple/".toList) ∧ net.urlPath b = some p ∧
    PagePath p name q ∧ url = net.withPath b q

/-- the repository version that the page declares is understood: its major number is at most 1 -/
def Understood (doc : Node) : Prop := ∃ v, Pep440.parseVersion (pageVersion doc) = .ok v ∧ ∀ n rest, v.release = n :: rest → n ≤ 1

/-- `n` is the first link of the page with this text -/
def FirstWith (doc : Node) (text : Str) (n : Node) : Prop :=
  ∃ before after, nodes doc = before ++ n :: after ∧ IsElem "a" n ∧ textBelow n = text ∧ ∀ m ∈ before, IsElem "a" m → textBelow m ≠ text

/-- the target of a link -/
def Target (resolve : Str → Option Str) (n : Node) (url : Str) : Prop :=
  url = (match ((n.attrs.filter (fun a => a.ns = [] ∧ a.key = "href".toList)).getLast?) with
    | some a => (resolve a.val).getD []
    | none => [])

/-- a page on which every target can be resolved -/
def Resolvable (resolve : Str → Option Str) (doc : Node) : Prop :=
  ∀ n ∈ nodes doc, IsElem "a" n → ∀ a ∈ n.attrs, a.ns = [] → a.key = "href".toList → (resolve a.val).isSome

/-- what `getwheel` downloads: the page of the project in the file name, and there the first link with the file name as its text -/
structure Downloads (net : Net) (base filename : Str) (page file : Str) (body : List UInt8) : Prop where
  found : ∃ info loc loc' content doc n, parseFilename filename = .ok info ∧ PageURL net base info.distribution page ∧
    Fetched net page loc content ∧ net.parse content = some doc ∧ Understood doc ∧ Resolvable (net.resolve loc) doc ∧
    FirstWith doc filename n ∧ Target (net.resolve loc) n file ∧ Fetched net file loc' body

end Spec

theorem parseQuery_bad {unescape : Str → Option Str} {parts : List Str} (h : ¬ ∀ p ∈ parts, p = [] ∨ ∃ k v, Decodes unescape p k v) :
    parseQuery unescape parts = .error () := by
  induction parts with
  | nil => exact absurd (fun p hp => (nomatch hp)) h
  | cons p ps ih =>
    rw [parseQuery]
    by_cases hp : p = [] ∨ ∃ k v, Decodes unescape p k v
    · rw [ih (fun hh => h (fun q hq => (List.mem_cons.mp hq).elim (fun e => e ▸ hp) (hh q)))]
      cases queryPart unescape p with
      | error => rfl
      | ok o => cases o <;> rfl
    · have : queryPart unescape p = .error () := by
        unfold queryPart
        by_cases h1 : p.contains ';' = true
        · rw [if_pos h1]
        · rw [if_neg h1]
          by_cases h2 : p = []
          · exact absurd (Or.inl h2) hp
          · rw [if_neg h2]
            simp only
            split
            · rename_i k v hk hv
              exfalso
              apply hp
              right
              refine ⟨k, v, by simpa using h1, p.takeWhile (· ≠ '='), (p.dropWhile (· ≠ '=')).drop 1, ?_, ?_, hk, hv⟩
              · have ht := List.takeWhile_append_dropWhile (p := (· ≠ '=')) (l := p)
                cases hd : p.dropWhile (· ≠ '=') with
                | nil =>
                  right
                  rw [hd, List.append_nil] at ht
                  exact ⟨ht.symm, rfl, by rw [ht]; exact h2⟩
                | cons c cs =>
                  left
                  have hc : c = '=' := by
                    have := List.head?_dropWhile_not (· ≠ '=') p
                    rw [hd] at this
                    simpa using this
                  rw [hd, hc] at ht
                  simpa using ht.symm
              · intro hm
                have := List.all_eq_true.mp (List.all_takeWhile (l := p) (p := (· ≠ '='))) _ hm
                simp at this
            · rfl
      rw [this]

theorem get_iff (net : Net) (horder : ∀ l, (net.order l).Perm l) (url loc : Str) (body : List UInt8) :
    (net.get url).2 = .ok (loc, body) ↔ Spec.Fetched net url loc body := by
  obtain ⟨c1, c2⟩ := C38_checksums_partial (doReq := fun u => (net.doReq u).map (·.2)) (fragment := net.fragment) (unescape := net.unescape)
    (digest := net.digest) (order := net.order) (url := url) horder
  unfold Net.get Spec.Fetched
  simp only
  cases hd : net.doReq url with
  | none =>
    simp only [reduceCtorEq, false_and, exists_false, iff_false]
    cases Repo.get (fun u => (net.doReq u).map (·.2)) net.fragment net.unescape net.digest net.order url <;> simp
  | some lr =>
    obtain ⟨loc', r⟩ := lr
    have hb : ∀ b, Repo.get (fun u => (net.doReq u).map (·.2)) net.fragment net.unescape net.digest net.order url = .ok b → r.status = 200 ∧ r.body = b := by
      intro b h
      obtain ⟨r', e1, e2, e3⟩ := c1 b h
      simp only [hd, Option.map_some, Option.some.injEq] at e1
      subst e1
      exact ⟨e2, e3⟩
    have hg : r.status = 200 → (Repo.get (fun u => (net.doReq u).map (·.2)) net.fragment net.unescape net.digest net.order url = .ok r.body ↔
        ∀ frag, net.fragment url = some frag → Spec.Readable net.unescape frag → ∀ k v, Promises net.unescape frag k v → net.digest k r.body = v) := by
      intro hs
      by_cases hf : ∃ frag, net.fragment url = some frag ∧ Spec.Readable net.unescape frag
      · obtain ⟨frag, hf, hr⟩ := hf
        rw [c2 frag r hf hr (by simp [hd]) hs]
        constructor
        · intro h frag' e _
          rw [hf] at e
          injection e with e
          subst e
          exact h
        · intro h
          exact h frag hf hr
      · constructor
        · intro _ frag e1 e2
          exact absurd ⟨frag, e1, e2⟩ hf
        · intro _
          unfold Repo.get
          simp only [hd, Option.map_some, hs, ne_eq, not_true, if_false]
          cases hx : net.fragment url with
          | none => rfl
          | some frag =>
            simp only
            by_cases h0 : frag = []
            · rw [if_pos h0]
            · rw [if_neg h0, parseQuery_bad (fun h => hf ⟨frag, hx, h⟩)]
    cases hgg : Repo.get (fun u => (net.doReq u).map (·.2)) net.fragment net.unescape net.digest net.order url with
    | error e =>
      simp only [reduceCtorEq, false_iff]
      rintro ⟨r', e1, e2, e3, e4⟩
      injection e1 with e1
      injection e1 with _ e1
      subst e1
      subst e3
      rw [(hg e2).mpr e4] at hgg
      cases hgg
    | ok b =>
      obtain ⟨h1, h2⟩ := hb b hgg
      simp only [Except.ok.injEq, Prod.mk.injEq, Option.some.injEq]
      constructor
      · rintro ⟨rfl, rfl⟩
        refine ⟨r, ⟨rfl, rfl⟩, h1, h2, ?_⟩
        rw [← h2] at hgg ⊢
        exact (hg h1).mp hgg
      · rintro ⟨r', ⟨rfl, rfl⟩, _, e3, _⟩
        exact ⟨rfl, h2.symm.trans e3⟩

theorem getFile_iff (net : Net) (horder : ∀ l, (net.order l).Perm l) (l : Link) (body : List UInt8) :
    (net.getFile l).1 = [l.href] ∧ ((net.getFile l).2 = .ok body ↔ ∃ loc, Spec.Fetched net l.href loc body) := by
  have h := get_iff net horder l.href
  unfold Net.getFile
  cases hx : net.get l.href with
  | mk reqs x =>
    have hr : reqs = [l.href] := by
      have := congrArg Prod.fst hx
      exact this.symm
    rw [hx] at h
    cases x with
    | error e =>
      refine ⟨hr, by simp, ?_⟩
      rintro ⟨loc, hf⟩
      cases (h loc body).mpr hf
    | ok lb =>
      obtain ⟨loc, b⟩ := lb
      refine ⟨hr, ?_, ?_⟩
      · intro e
        injection e with e
        subst e
        exact ⟨loc, (h loc b).mp rfl⟩
      · rintro ⟨loc', hf⟩
        have := (h loc' body).mpr hf
        injection this with this
        injection this with _ this
        subst this
        rfl

/-- what the parser of HTML guarantees -/
def Spec.Parses (net : Net) : Prop := ∀ b doc, net.parse b = some doc → WellNested doc ∧ MetaLeaves doc

theorem understood_iff {doc : Node} (h : MetaLeaves doc) : htmlVersionCheck doc = .ok () ↔ Spec.Understood doc := by
  obtain ⟨h1, h2⟩ := C40_version_check h
  unfold Spec.Understood
  constructor
  · intro hk
    have hn : ¬ htmlVersionCheck doc = .error () := by rw [hk]; exact fun e => (nomatch e)
    rw [h2] at hn
    cases hv : Pep440.parseVersion (pageVersion doc) with
    | error e => exact absurd (Or.inl hv) hn
    | ok v =>
      refine ⟨v, rfl, ?_⟩
      intro n rest hr
      exact Int.not_lt.mp (fun hlt => hn (Or.inr ⟨v, n, rest, hv, hr, hlt⟩))
  · rintro ⟨v, hv, hn⟩
    rcases h1 with h1 | h1
    · exact h1
    · exfalso
      rcases h2.mp h1 with h3 | ⟨v', n, rest, h3, h4, h5⟩
      · rw [hv] at h3; cases h3
      · rw [hv] at h3
        injection h3 with h3
        subst h3
        have := hn n rest h4
        omega

theorem index_fwd (net : Net) (horder : ∀ l, (net.order l).Perm l) (hparse : Spec.Parses net) (url : Str) :
    (net.index htmlVersionCheck url).1 = [url] ∧
    (∀ links, (net.index htmlVersionCheck url).2 = .ok links → ∃ loc content doc, Spec.Fetched net url loc content ∧ net.parse content = some doc ∧
      Spec.Understood doc ∧ Spec.Resolvable (net.resolve loc) doc ∧ Corr (IsLinkOf (net.resolve loc)) ((nodes doc).filter isA) links) ∧
    (∀ loc content doc, Spec.Fetched net url loc content → net.parse content = some doc → Spec.Understood doc →
      Spec.Resolvable (net.resolve loc) doc → ∃ links, (net.index htmlVersionCheck url).2 = .ok links ∧
        Corr (IsLinkOf (net.resolve loc)) ((nodes doc).filter isA) links) := by
  have h := get_iff net horder url
  unfold Net.index
  cases hx : net.get url with
  | mk reqs x =>
    have hr : reqs = [url] := (congrArg Prod.fst hx).symm
    rw [hx] at h
    cases x with
    | error e =>
      refine ⟨hr, by simp, ?_⟩
      intro loc content doc hf
      cases (h loc content).mpr hf
    | ok lb =>
      obtain ⟨loc, content⟩ := lb
      have hf := (h loc content).mp rfl
      have huniq : ∀ loc' content', Spec.Fetched net url loc' content' → loc' = loc ∧ content' = content := by
        intro loc' content' hf'
        have := (h loc' content').mpr hf'
        simp only [Except.ok.injEq, Prod.mk.injEq] at this
        exact ⟨this.1.symm, this.2.symm⟩
      simp only
      cases hp : net.parse content with
      | none =>
        refine ⟨hr, by simp, ?_⟩
        intro loc' content' doc hf' hp'
        obtain ⟨rfl, rfl⟩ := huniq _ _ hf'
        rw [hp] at hp'; cases hp'
      | some doc =>
        obtain ⟨hw, hm⟩ := hparse _ _ hp
        refine ⟨hr, ?_, ?_⟩
        · intro links hl
          simp only at hl
          have hk : htmlVersionCheck doc = .ok () := by
            unfold indexLinks at hl
            split at hl
            · cases hl
            · assumption
          obtain ⟨c1, c2⟩ := C84_index_links (resolve := net.resolve loc) (hook := htmlVersionCheck) hw hk
          exact ⟨loc, content, doc, hf, hp, (understood_iff hm).mp hk, c2.mp ⟨links, hl⟩, c1 links hl⟩
        · intro loc' content' doc' hf' hp' hu hres
          obtain ⟨rfl, rfl⟩ := huniq _ _ hf'
          rw [hp] at hp'
          injection hp' with hp'
          subst hp'
          obtain ⟨c1, c2⟩ := C84_index_links (resolve := net.resolve loc') (hook := htmlVersionCheck) hw ((understood_iff hm).mpr hu)
          obtain ⟨links, hl⟩ := c2.mpr hres
          exact ⟨links, hl, c1 links hl⟩

theorem pick_first (net : Net) (resolve : Str → Option Str) (t : Str) {ns : List Node} {links : List Link} (h : Corr (IsLinkOf resolve) ns links) :
    (pickLink net t links = ([], .error ()) ∧ ∀ n ∈ ns, textBelow n ≠ t) ∨
    ∃ before n after l, ns = before ++ n :: after ∧ textBelow n = t ∧ (∀ m ∈ before, textBelow m ≠ t) ∧ IsLinkOf resolve n l ∧
      pickLink net t links = net.getFile l := by
  induction h with
  | nil => exact Or.inl ⟨rfl, fun n hn => (nomatch hn)⟩
  | @cons n l ns links hl _ ih =>
    rw [pickLink]
    by_cases ht : l.text = t
    · rw [if_pos ht]
      exact Or.inr ⟨[], n, ns, l, rfl, by rw [← hl.1]; exact ht, fun m hm => (nomatch hm), hl, rfl⟩
    · rw [if_neg ht]
      have hn : textBelow n ≠ t := by rw [← hl.1]; exact ht
      rcases ih with ⟨h1, h2⟩ | ⟨before, n', after, l', rfl, h2, h3, h4, h5⟩
      · exact Or.inl ⟨h1, fun m hm => (List.mem_cons.mp hm).elim (fun e => e ▸ hn) (h2 m)⟩
      · exact Or.inr ⟨n :: before, n', after, l', rfl, h2, fun m hm => (List.mem_cons.mp hm).elim (fun e => e ▸ hn) (h3 m), h4, h5⟩

theorem pick_at (net : Net) (resolve : Str → Option Str) (t : Str) {before : List Node} {n : Node} {after : List Node} {links : List Link}
    (h : Corr (IsLinkOf resolve) (before ++ n :: after) links) (hn : textBelow n = t) (hb : ∀ m ∈ before, textBelow m ≠ t) :
    ∃ l, IsLinkOf resolve n l ∧ pickLink net t links = net.getFile l := by
  induction before generalizing links with
  | nil =>
    cases h with
    | @cons _ l _ links hl _ =>
      refine ⟨l, hl, ?_⟩
      rw [pickLink, if_pos (by rw [hl.1]; exact hn)]
  | cons m before ih =>
    cases h with
    | @cons _ l _ links hl h =>
      obtain ⟨l', h1, h2⟩ := ih h (fun x hx => hb x (by simp [hx]))
      refine ⟨l', h1, ?_⟩
      rw [pickLink, if_neg (by rw [hl.1]; exact hb m (by simp)), h2]

theorem page_url (net : Net) (base name : Str) (hne : name ≠ []) (hv : ValidName name) {p q : Str} (hp : net.urlPath (fillBase base) = some p)
    (hq : requestPath p name = .ok q) : Spec.PageURL net base name (net.withPath (fillBase base) q) := by
  obtain ⟨e, h1, h2, h3, h4, h5⟩ := (C37_one_element p name hne).1 hv
  rw [hq] at h5
  injection h5 with h5
  refine ⟨hv, fillBase base, p, q, ?_, ?_, hp, ⟨e, h1, h2, h3, h4, h5⟩, rfl⟩
  · intro hb; unfold fillBase; rw [if_neg hb]
  · intro hb; unfold fillBase; rw [if_pos hb]

theorem page_url' (net : Net) (base name : Str) (hne : name ≠ []) {url : Str} (h : Spec.PageURL net base name url) :
    ValidName name ∧ ∃ p q, net.urlPath (fillBase base) = some p ∧ requestPath p name = .ok q ∧ url = net.withPath (fillBase base) q := by
  obtain ⟨hv, b, p, q, h1, h2, h3, ⟨e, g1, g2, g3, g4, g5⟩, h5⟩ := h
  have hb : b = fillBase base := by
    unfold fillBase
    by_cases hb : base = []
    · rw [if_pos hb, h2 hb]
    · rw [if_neg hb, h1 hb]
  subst hb
  obtain ⟨e', f1, f2, f3, f4, f5⟩ := (C37_one_element p name hne).1 hv
  refine ⟨hv, p, q, h3, ?_, h5⟩
  have hval : ∀ {x : Str}, (∀ c ∈ x, c ∈ "abcdefghijklmnopqrstuvwxyz0123456789-".toList) → ValidName x := fun hx c hc =>
    (show ∀ c ∈ "abcdefghijklmnopqrstuvwxyz0123456789-".toList,
      c ∈ "abcdefghijklmnopqrstuvwxyzABCDEFGHIJKLMNOPQRSTUVWXYZ0123456789.-_".toList by decide +kernel) c (hx c hc)
  have ee : e = e' := by
    have a1 := (C36_normalize (hval g2) hv).2.1.mpr g4
    have a2 := (C36_normalize (hval f2) hv).2.1.mpr f4
    rw [normalize_id g2 g3] at a1
    rw [normalize_id f2 f3] at a2
    rw [a1, a2]
  rw [f5, g5, ee]

theorem listPackageFiles_none (net : Net) (hook : Node → Except Unit Unit) (base name : Str) {p q : Str} (hv : ValidName name)
    (hp : net.urlPath (fillBase base) = some p) (hq : requestPath p name = .ok q) :
    net.listPackageFiles hook none base name = ((net.index hook (net.withPath (fillBase base) q)).1,
      some (net.index hook (net.withPath (fillBase base) q)).2) := by
  have hf : ∀ raw, filterLinks none raw = some raw := by
    intro raw
    induction raw with
    | nil => rfl
    | cons l ls ih => rw [filterLinks, ih]; rfl
  unfold Net.listPackageFiles
  rw [if_pos (validName_all.mp hv), hp]
  simp only [hq]
  cases net.index hook (net.withPath (fillBase base) q) with
  | mk reqs x =>
    cases x with
    | error e => rfl
    | ok raw => simp only [hf]

theorem listPackageFiles_bad (net : Net) (hook : Node → Except Unit Unit) (base name : Str) (hne : name ≠ [])
    (h : ¬ ∃ url, Spec.PageURL net base name url) : net.listPackageFiles hook none base name = ([], some (.error ())) := by
  unfold Net.listPackageFiles
  split
  · rename_i hv
    cases hp : net.urlPath (fillBase base) with
    | none => rfl
    | some p =>
      cases hq : requestPath p name with
      | error e => simp only [hq]
      | ok q => exact absurd ⟨_, page_url net base name hne (validName_all.mpr hv) hp hq⟩ h
  · rfl

theorem getwheel_page (net : Net) (base filename : Str) {info : FileNameData} (hi : parseFilename filename = .ok info) (hne : info.distribution ≠ [])
    {page : Str} (hp : Spec.PageURL net base info.distribution page) :
    (∀ links, (net.index htmlVersionCheck page).2 = .ok links →
      getwheel net base filename = ((net.index htmlVersionCheck page).1 ++ (pickLink net filename links).1, (pickLink net filename links).2)) ∧
    ((∀ links, (net.index htmlVersionCheck page).2 ≠ .ok links) →
      (getwheel net base filename).1 = (net.index htmlVersionCheck page).1 ∧ (getwheel net base filename).2 = .error ()) := by
  obtain ⟨hv, p, q, h1, h2, rfl⟩ := page_url' net base info.distribution hne hp
  unfold getwheel
  rw [hi]
  simp only [listPackageFiles_none net htmlVersionCheck base info.distribution hv h1 h2]
  cases (net.index htmlVersionCheck (net.withPath (fillBase base) q)).2 with
  | error e => exact ⟨fun links h => (nomatch h), fun _ => ⟨rfl, rfl⟩⟩
  | ok links =>
    refine ⟨?_, fun h => absurd rfl (h links)⟩
    intro links' h
    injection h with h
    subst h
    rfl

theorem page_unique (net : Net) (base name : Str) (hne : name ≠ []) {u u' : Str} (h : Spec.PageURL net base name u) (h' : Spec.PageURL net base name u') :
    u = u' := by
  obtain ⟨_, p, q, h1, h2, rfl⟩ := page_url' net base name hne h
  obtain ⟨_, p', q', h1', h2', rfl⟩ := page_url' net base name hne h'
  rw [h1] at h1'
  injection h1' with h1'
  subst h1'
  rw [h2] at h2'
  injection h2' with h2'
  rw [h2']

theorem first_with {doc : Node} {text : Str} {before after : List Node} {n : Node} (h : (nodes doc).filter isA = before ++ n :: after)
    (ht : textBelow n = text) (hb : ∀ m ∈ before, textBelow m ≠ text) : Spec.FirstWith doc text n := by
  rw [List.filter_eq_append_iff] at h
  obtain ⟨l1, l2, e, f1, f2⟩ := h
  rw [List.filter_eq_cons_iff] at f2
  obtain ⟨m1, m2, e', g1, g2, g3⟩ := f2
  refine ⟨l1 ++ m1, m2, by rw [e, e', List.append_assoc], isA_iff.mp g2, ht, ?_⟩
  intro m hm ha
  rcases List.mem_append.mp hm with hm | hm
  · exact hb m (by rw [← f1]; exact List.mem_filter.mpr ⟨hm, isA_iff.mpr ha⟩)
  · exact absurd (isA_iff.mpr ha) (g1 m hm)

theorem first_with' {doc : Node} {text : Str} {n : Node} (h : Spec.FirstWith doc text n) :
    ∃ before after, (nodes doc).filter isA = before ++ n :: after ∧ textBelow n = text ∧ ∀ m ∈ before, textBelow m ≠ text := by
  obtain ⟨before, after, e, ha, ht, hb⟩ := h
  refine ⟨before.filter isA, after.filter isA, ?_, ht, ?_⟩
  · rw [e, List.filter_append, List.filter_cons, if_pos (isA_iff.mpr ha)]
  · intro m hm
    obtain ⟨h1, h2⟩ := List.mem_filter.mp hm
    exact hb m h1 (isA_iff.mp h2)

/-- **C95**: `getwheel` writes exactly the file behind the first link with that text on the page of the project, if the page can be
understood and the checksums in the link's URL are right (C38 says which are checked; `C95_violated` shows the gap); it requests that page
and then that file, and never anything but the page and the target of that link. -/
theorem C95_getwheel_partial (net : Net) (horder : ∀ l, (net.order l).Perm l) (hparse : Spec.Parses net) (base filename : Str) :
    (∀ body, (getwheel net base filename).2 = .ok body ↔ ∃ page file, Spec.Downloads net base filename page file body) ∧
    (∀ page file body, Spec.Downloads net base filename page file body → (getwheel net base filename).1 = [page, file]) ∧
    (∀ u ∈ (getwheel net base filename).1, ∃ info page, parseFilename filename = .ok info ∧ Spec.PageURL net base info.distribution page ∧
      (u = page ∨ ∃ loc content doc n, Spec.Fetched net page loc content ∧ net.parse content = some doc ∧ Spec.FirstWith doc filename n ∧
        Spec.Target (net.resolve loc) n u)) := by
  cases hi : parseFilename filename with
  | error e =>
    have he : getwheel net base filename = ([], .error e) := by unfold getwheel; rw [hi]
    have hno : ∀ page file body, ¬ Spec.Downloads net base filename page file body := by
      rintro page file body ⟨info, _, _, _, _, _, h, _⟩
      rw [hi] at h; cases h
    rw [he]
    refine ⟨fun body => ⟨fun h => (nomatch h), ?_⟩, fun p f b h => absurd h (hno p f b), fun u hu => (nomatch hu)⟩
    rintro ⟨p, f, h⟩
    exact absurd h (hno p f body)
  | ok info =>
    have hne : info.distribution ≠ [] := by
      obtain ⟨vs, hc, _⟩ := (C83_parse_exact filename info).mp hi
      exact hc.1
    by_cases hp : ∃ page, Spec.PageURL net base info.distribution page
    · obtain ⟨page, hp⟩ := hp
      obtain ⟨i1, i2, i3⟩ := index_fwd net horder hparse page
      obtain ⟨g1, g2⟩ := getwheel_page net base filename hi hne hp
      have huniq : ∀ page' file body, Spec.Downloads net base filename page' file body → page' = page := by
        rintro page' file body ⟨info', _, _, _, _, _, h, h', _⟩
        rw [hi] at h
        injection h with h
        subst h
        exact page_unique net base _ hne h' hp
      have hback : ∀ page' file body, Spec.Downloads net base filename page' file body →
          (getwheel net base filename).1 = [page, file] ∧ (getwheel net base filename).2 = .ok body := by
        intro page' file body hd
        have := huniq _ _ _ hd
        subst this
        obtain ⟨info', loc, loc', content, doc, n, _, _, h3, h4, h5, h6, h7, h8, h9⟩ := hd
        obtain ⟨links, hl, hc⟩ := i3 loc content doc h3 h4 h5 h6
        obtain ⟨before, after, e1, e2, e3⟩ := first_with' h7
        rw [e1] at hc
        obtain ⟨l, hlink, hpick⟩ := pick_at net _ filename hc e2 e3
        have hh : l.href = file := by rw [hlink.2.2.1]; exact h8.symm
        obtain ⟨f1, f2⟩ := getFile_iff net horder l body
        rw [g1 links hl, i1, hpick, f1, hh]
        exact ⟨rfl, f2.mpr ⟨loc', by rw [hh]; exact h9⟩⟩
      refine ⟨?_, ?_, ?_⟩
      · intro body
        constructor
        · intro hb
          cases hx : (net.index htmlVersionCheck page).2 with
          | error e =>
            have := (g2 (fun links h => by rw [hx] at h; cases h)).2
            rw [this] at hb; cases hb
          | ok links =>
            obtain ⟨loc, content, doc, h1, h2, h3, h4, h5⟩ := i2 links hx
            rw [g1 links hx] at hb
            rcases pick_first net _ filename h5 with ⟨e, _⟩ | ⟨before, n, after, l, e1, e2, e3, e4, e5⟩
            · rw [e] at hb; cases hb
            · rw [e5] at hb
              obtain ⟨loc', hf⟩ := (getFile_iff net horder l body).2.mp hb
              exact ⟨page, l.href, info, loc, loc', content, doc, n, hi, hp, h1, h2, h3, h4, first_with e1 e2 e3, e4.2.2.1, hf⟩
        · rintro ⟨page', file, hd⟩
          exact (hback page' file body hd).2
      · intro page' file body hd
        rw [(hback page' file body hd).1, huniq _ _ _ hd]
      · intro u hu
        refine ⟨info, page, rfl, hp, ?_⟩
        cases hx : (net.index htmlVersionCheck page).2 with
        | error e =>
          have := (g2 (fun links h => by rw [hx] at h; cases h)).1
          rw [this, i1] at hu
          exact Or.inl (List.mem_singleton.mp hu)
        | ok links =>
          obtain ⟨loc, content, doc, h1, h2, h3, h4, h5⟩ := i2 links hx
          rw [g1 links hx, i1] at hu
          rcases List.mem_append.mp hu with hu | hu
          · exact Or.inl (List.mem_singleton.mp hu)
          · rcases pick_first net _ filename h5 with ⟨e, _⟩ | ⟨before, n, after, l, e1, e2, e3, e4, e5⟩
            · rw [e] at hu; cases hu
            · rw [e5, (getFile_iff net horder l []).1] at hu
              rw [List.mem_singleton.mp hu]
              exact Or.inr ⟨loc, content, doc, n, h1, h2, first_with e1 e2 e3, e4.2.2.1⟩
    · have he : getwheel net base filename = ([], .error ()) := by
        unfold getwheel
        rw [hi]
        simp only [listPackageFiles_bad net htmlVersionCheck base info.distribution hne hp]
      have hno : ∀ page file body, ¬ Spec.Downloads net base filename page file body := by
        rintro page file body ⟨info', _, _, _, _, _, h, h', _⟩
        rw [hi] at h
        injection h with h
        subst h
        exact hp ⟨page, h'⟩
      rw [he]
      refine ⟨fun body => ⟨fun h => (nomatch h), ?_⟩, fun p f b h => absurd h (hno p f b), fun u hu => (nomatch hu)⟩
      rintro ⟨p, f, h⟩
      exact absurd h (hno p f body)

/-! ### A server -/

def toyPage (href : String) : Node :=
  .mk .element "body".toList []
    [.mk .element "a".toList [⟨[], "href".toList, "other".toList⟩] [.mk .text "foo-0.9-py3-none-any.whl".toList [] []],
     .mk .element "a".toList [⟨[], "href".toList, href.toList⟩] [.mk .text "Foo_Bar-1.0-py3-none-any.whl".toList [] []],
     .mk .element "a".toList [⟨[], "href".toList, "later".toList⟩] [.mk .text "Foo_Bar-1.0-py3-none-any.whl".toList [] []]]

/-- an index with one page (content `[0]`) and, below `/f/`, files with the content `[1]`; `href` is the second link of the page -/
def toyNet (href : String) : Net :=
  { doReq := fun u => if u = "http://i/s/foo-bar".toList then some (u, ⟨200, [0]⟩)
      else if hasPrefix u "http://i/f/".toList then some (u, ⟨200, [1]⟩) else some (u, ⟨404, []⟩)
    fragment := fun u => some ((u.dropWhile (· ≠ '#')).drop 1)
    unescape := fun x => if '%' ∈ x then none else some x
    digest := fun _ b => if b = [1] then "e3".toList else []
    order := id
    parse := fun b => if b = [0] then some (toyPage href) else none
    resolve := fun _ r => some ("http://i/f/".toList ++ r)
    urlPath := fun u => if u = "http://i/s/".toList then some "/s/".toList else none
    withPath := fun _ q => "http://i".toList ++ q }

theorem toyNet_parses (href : String) : Spec.Parses (toyNet href) := by
  intro b doc h
  have h : (if b = [0] then some (toyPage href) else none) = some doc := h
  split at h
  · injection h with h
    subst h
    refine ⟨⟨?_, ?_⟩, ?_⟩
    all_goals
      intro n hn
      simp only [toyPage, nodes, nodesList, List.append_nil, List.cons_append, List.nil_append, List.mem_cons, List.not_mem_nil, or_false] at hn
      rcases hn with rfl | rfl | rfl | rfl | rfl | rfl | rfl <;> simp [Node.kind, Node.children, nodesList, nodes, IsElem, Node.data]
  · cases h

/-- the conditions of `C95_getwheel_partial`, and what it speaks about: a wheel, with a right checksum -/
example : (∀ l, ((toyNet "w.whl#sha256=e3").order l).Perm l) ∧ Spec.Parses (toyNet "w.whl#sha256=e3") ∧
    getwheel (toyNet "w.whl#sha256=e3") "http://i/s/".toList "Foo_Bar-1.0-py3-none-any.whl".toList =
      (["http://i/s/foo-bar".toList, "http://i/f/w.whl#sha256=e3".toList], .ok [1]) ∧
    (getwheel (toyNet "w.whl#sha256=e4") "http://i/s/".toList "Foo_Bar-1.0-py3-none-any.whl".toList).2 = .error () :=
  ⟨fun l => List.Perm.refl l, toyNet_parses _, by decide +kernel, by decide +kernel⟩

/-- **C95** fails as C38 does: a wheel is written though its checksum is not the one in the link. -/
theorem C95_violated : ∃ net base filename page file body frag v, (∀ l, (net.order l).Perm l) ∧ Spec.Parses net ∧
    getwheel net base filename = ([page, file], .ok body) ∧ net.fragment file = some frag ∧ Promises net.unescape frag "sha256".toList v ∧
    net.digest "sha256".toList body ≠ v := by
  refine ⟨toyNet "w.whl#sha256=e4&x=%z", "http://i/s/".toList, "Foo_Bar-1.0-py3-none-any.whl".toList, "http://i/s/foo-bar".toList,
    "http://i/f/w.whl#sha256=e4&x=%z".toList, [1], "sha256=e4&x=%z".toList, "e4".toList, fun l => List.Perm.refl l, toyNet_parses _, by decide +kernel, by decide +kernel,
    ⟨by decide +kernel, "sha256=e4".toList, by decide +kernel, by decide +kernel, "sha256".toList, "e4".toList, Or.inl (by decide +kernel), by decide +kernel, by decide +kernel, by decide +kernel⟩, by decide +kernel⟩

/-! ### Signatures -/

/-- **C96**, what the code does: it returns the file itself.  Nothing is requested for a link that says that there is no signature;
otherwise only the URL of the file is. -/
theorem C96_exact_partial (net : Net) (horder : ∀ l, (net.order l).Perm l) (l : Link) :
    (l.attr "data-gpg-sig".toList = some "false".toList → net.getSignature l = ([], .noSignature)) ∧
    (l.attr "data-gpg-sig".toList ≠ some "false".toList →
      (net.getSignature l).1 = [l.href] ∧
      (∀ content, (net.getSignature l).2 = .ok content ↔ ∃ loc, Spec.Fetched net l.href loc content) ∧
      ((net.getSignature l).2 = .noSignature ↔
        l.attr "data-gpg-sig".toList ≠ some "true".toList ∧ ∃ loc r, net.doReq l.href = some (loc, r) ∧ r.status = 404)) := by
  constructor
  · intro h
    unfold Net.getSignature
    rw [if_pos h]
  · intro h
    have hf := getFile_iff net horder l
    have hno : (∃ loc r, net.doReq l.href = some (loc, r) ∧ r.status = 404) → ∀ content, ¬ ∃ loc, Spec.Fetched net l.href loc content := by
      rintro ⟨loc, r, h1, h2⟩ content ⟨loc', r', h3, h4, _⟩
      rw [h1] at h3
      simp only [Option.some.injEq, Prod.mk.injEq] at h3
      rw [h3.2] at h2
      omega
    unfold Net.getSignature
    rw [if_neg h]
    cases hx : net.getFile l with
    | mk reqs x =>
      rw [hx] at hf
      have hr : reqs = [l.href] := (hf []).1
      subst hr
      cases x with
      | ok content =>
        refine ⟨rfl, ?_, ?_⟩
        · intro c
          rw [← (hf c).2]
          simp
        · simp only [reduceCtorEq, false_iff]
          rintro ⟨_, h2⟩
          exact hno h2 content ((hf content).2.mp rfl)
      | error e =>
        simp only
        have hnf : ∀ c, ¬ ∃ loc, Spec.Fetched net l.href loc c := fun c h => (nomatch (hf c).2.mpr h)
        by_cases ht : l.attr "data-gpg-sig".toList = some "true".toList
        · rw [if_pos ht]
          exact ⟨rfl, fun c => ⟨fun h => (nomatch h), fun h => absurd h (hnf c)⟩, ⟨fun h => (nomatch h), fun h => absurd ht h.1⟩⟩
        · rw [if_neg ht]
          cases hd : net.doReq l.href with
          | none =>
            refine ⟨rfl, fun c => ⟨fun h => (nomatch h), fun h => absurd h (hnf c)⟩, ⟨fun h => (nomatch h), ?_⟩⟩
            rintro ⟨_, loc, r, h1, _⟩
            cases h1
          | some lr =>
            obtain ⟨loc, r⟩ := lr
            simp only
            by_cases hs : r.status = 404
            · rw [if_pos hs]
              exact ⟨by first | rfl | trivial, fun c => ⟨fun h => (nomatch h), fun h => absurd h (hnf c)⟩, ⟨fun _ => ⟨ht, loc, r, rfl, hs⟩, fun _ => rfl⟩⟩
            · rw [if_neg hs]
              refine ⟨by first | rfl | trivial, fun c => ⟨fun h => (nomatch h), fun h => absurd h (hnf c)⟩, ⟨fun h => (nomatch h), ?_⟩⟩
              rintro ⟨_, loc', r', h1, h2⟩
              simp only [Option.some.injEq, Prod.mk.injEq] at h1
              rw [h1.2] at hs
              exact absurd h2 hs

/-- **C96** fails for every file with a signature that can be downloaded: PEP 503 puts the signature at the URL of the file (without
fragment) with `.asc` appended, but the code returns the file, and does not look there. -/
theorem C96_violated (net : Net) (horder : ∀ l, (net.order l).Perm l) (l : Link) (url loc : Str) (frag : Str) (content : List UInt8)
    (hurl : l.href = url ++ frag) (hfrag : frag = [] ∨ ∃ x, frag = '#' :: x) (hsig : l.attr "data-gpg-sig".toList = some "true".toList)
    (hfile : Spec.Fetched net l.href loc content) :
    (net.getSignature l).2 = .ok content ∧ url ++ ".asc".toList ∉ (net.getSignature l).1 := by
  obtain ⟨h1, h2, _⟩ := (C96_exact_partial net horder l).2 (by rw [hsig]; decide +kernel)
  refine ⟨(h2 content).mpr ⟨loc, hfile⟩, ?_⟩
  rw [h1, hurl, List.mem_singleton]
  intro e
  have e := List.append_cancel_left e
  rcases hfrag with rfl | ⟨x, rfl⟩
  · cases e
  · have := (List.cons.inj e).1
    exact absurd this (by decide)

/-- a file at `http://i/f/w.whl` with a signature -/
example : Spec.Fetched (toyNet "") "http://i/f/w.whl#sha256=e3".toList "http://i/f/w.whl#sha256=e3".toList [1] ∧
    (toyNet "").getSignature ⟨[], "http://i/f/w.whl#sha256=e3".toList, [("data-gpg-sig".toList, "true".toList)]⟩ =
      (["http://i/f/w.whl#sha256=e3".toList], .ok [1]) ∧
    (toyNet "").getSignature ⟨[], "http://i/g".toList, []⟩ = (["http://i/g".toList], .noSignature) :=
  ⟨(get_iff (toyNet "") (fun l => List.Perm.refl l) _ _ _).mp (by decide +kernel), by decide +kernel, by decide +kernel⟩

/-! ### Listing, as a whole -/

/-- **C84** for the functions that fetch the page: `ListPackages` reads the index, `ListFiles` the target of the link, and both give the
links of that page. -/
theorem C84_fetched (net : Net) (horder : ∀ l, (net.order l).Perm l) (hparse : Spec.Parses net) (base : Str) (l : Link) (url : Str)
    (run : List Str × Except Unit (List Link))
    (h : (run = net.listPackages htmlVersionCheck base ∧ url = (if base = [] then "https://pypi.org/simple/".toList else base)) ∨
      (run = net.listFiles htmlVersionCheck l ∧ url = l.href)) :
    run.1 = [url] ∧
    (∀ links, run.2 = .ok links → ∃ loc content doc, Spec.Fetched net url loc content ∧ net.parse content = some doc ∧ Spec.Understood doc ∧
      Corr (IsLinkOf (net.resolve loc)) ((nodes doc).filter isA) links) ∧
    ((∃ links, run.2 = .ok links) ↔ ∃ loc content doc, Spec.Fetched net url loc content ∧ net.parse content = some doc ∧ Spec.Understood doc ∧
      Spec.Resolvable (net.resolve loc) doc) := by
  have key : run = net.index htmlVersionCheck url := by
    rcases h with ⟨rfl, rfl⟩ | ⟨rfl, rfl⟩ <;> rfl
  subst key
  obtain ⟨i1, i2, i3⟩ := index_fwd net horder hparse url
  refine ⟨i1, ?_, ?_, ?_⟩
  · intro links hl
    obtain ⟨loc, content, doc, h1, h2, h3, _, h5⟩ := i2 links hl
    exact ⟨loc, content, doc, h1, h2, h3, h5⟩
  · rintro ⟨links, hl⟩
    obtain ⟨loc, content, doc, h1, h2, h3, h4, _⟩ := i2 links hl
    exact ⟨loc, content, doc, h1, h2, h3, h4⟩
  · rintro ⟨loc, content, doc, h1, h2, h3, h4⟩
    obtain ⟨links, hl, _⟩ := i3 loc content doc h1 h2 h3 h4
    exact ⟨links, hl⟩

open Classical in
/-- **C37**, **C39** and **C84** together: `ListPackageFiles` requests the page of the project and nothing else, and gives the links of
that page that the version of Python may use. -/
theorem C39_fetched (net : Net) (horder : ∀ l, (net.order l).Perm l) (hparse : Spec.Parses net) (python : Option Pep440.Ver) (base name : Str)
    (hne : name ≠ []) :
    ((¬ ∃ page, Spec.PageURL net base name page) → net.listPackageFiles htmlVersionCheck python base name = ([], some (.error ()))) ∧
    (∀ page, Spec.PageURL net base name page →
      (net.listPackageFiles htmlVersionCheck python base name).1 = [page] ∧
      ∀ links, (net.listPackageFiles htmlVersionCheck python base name).2 = some (.ok links) →
        ∃ loc content doc raw, Spec.Fetched net page loc content ∧ net.parse content = some doc ∧ Spec.Understood doc ∧
          Corr (IsLinkOf (net.resolve loc)) ((nodes doc).filter isA) raw ∧ links = raw.filter (fun l => decide (Stays python l))) := by
  constructor
  · intro h
    unfold Net.listPackageFiles
    split
    · rename_i hv
      cases hp : net.urlPath (fillBase base) with
      | none => rfl
      | some p =>
        cases hq : requestPath p name with
        | error e => simp only [hq]
        | ok q => exact absurd ⟨_, page_url net base name hne (validName_all.mpr hv) hp hq⟩ h
    · rfl
  · intro page hpage
    obtain ⟨hv, p, q, h1, h2, rfl⟩ := page_url' net base name hne hpage
    obtain ⟨i1, i2, _⟩ := index_fwd net horder hparse (net.withPath (fillBase base) q)
    unfold Net.listPackageFiles
    rw [if_pos (validName_all.mp hv), h1]
    simp only [h2]
    cases hx : net.index htmlVersionCheck (net.withPath (fillBase base) q) with
    | mk reqs x =>
      rw [hx] at i1 i2
      cases x with
      | error e => exact ⟨i1, fun links h => (nomatch h)⟩
      | ok raw =>
        simp only
        cases hf : filterLinks python raw with
        | none => exact ⟨i1, fun links h => (nomatch h)⟩
        | some links' =>
          refine ⟨i1, ?_⟩
          intro links h
          injection h with h
          injection h with h
          subst h
          obtain ⟨loc, content, doc, g1, g2, g3, _, g5⟩ := i2 raw rfl
          exact ⟨loc, content, doc, raw, g1, g2, g3, g5, (C39_filter python raw).1 _ hf⟩

/-- a page that is listed, in both ways -/
example : ((toyNet "w").listPackageFiles htmlVersionCheck none "http://i/s/".toList "Foo.bar".toList).1 = ["http://i/s/foo-bar".toList] ∧
    ((toyNet "w").listPackageFiles htmlVersionCheck none "http://i/s/".toList "Foo.bar".toList).2.map (·.toOption.map (·.map (·.href))) =
      some (some ["http://i/f/other".toList, "http://i/f/w".toList, "http://i/f/later".toList]) ∧
    ((toyNet "w").listFiles htmlVersionCheck ⟨[], "http://i/s/foo-bar".toList, []⟩).2.toOption.map (·.map (·.href)) =
      some ["http://i/f/other".toList, "http://i/f/w".toList, "http://i/f/later".toList] := by decide +kernel

end Repo
