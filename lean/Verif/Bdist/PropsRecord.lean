import Verif.Bdist.RecordLemmas
import Verif.Squash.FSLemmas
import Verif.Bdist.PropsInstalled
import Verif.Python.PropsJson
/-! C51: the RECORD file of an installed wheel. -/
namespace Bdist
open Go Fsutil Python

theorem rel_of_render {ts : List Str} (h : ∀ c ∈ ts, Plain c) : Spec.Rel (render false ts) :=
  ⟨clean_render (plain_clean h), isRooted_render (fun c hc => ⟨(h c hc).1, (h c hc).2.2.2⟩)⟩

theorem down_of_render {ts : List Str} (h : ∀ c ∈ ts, Plain c) : Spec.Down (render false ts) := by
  rw [down_iff, elems_render (plain_clean h)]
  intro hm
  exact (h _ hm).2.2.1 rfl

theorem join_snoc {cs : List Str} {x : Str} (h : ∀ c ∈ cs, Plain c) (hx : Plain x) :
    pathJoin [render false cs, x] = render false (cs ++ [x]) := by
  have hr : render false [x] = x := by simp [render, join]
  have := join_render h (plain_clean (r := false) (cs := [x]) (by simpa using hx))
  rw [hr] at this
  rw [this, foldl_plain (by simpa using hx)]
  simp

/-- the files a wheel may be installed as when a hook is called: with their own names, none of which leads upwards -/
structure Tame (m : Map Ref) : Prop where
  good : Good m
  down : ∀ k ∈ m.keys, Spec.Down k

theorem Tame.set {m : Map Ref} (h : Tame m) {ts : List Str} (ht : ∀ c ∈ ts, Plain c) {r : Ref} (hr : r.fullName = render false ts) :
    Tame (m.set (render false ts) r) := by
  refine ⟨h.good.set (rel_of_render ht) hr, ?_⟩
  intro k hk
  rw [Map.mem_keys_iff, Map.get?_set] at hk
  split at hk
  · rename_i e; rw [e]; exact down_of_render ht
  · exact h.down k ((Map.mem_keys_iff _ _).mpr hk)

theorem Tame.elems {m : Map Ref} (h : Tame m) {k : Str} {r : Ref} (hr : m.get? k = some r) :
    r.fullName = k ∧ ∃ ts, (∀ c ∈ ts, Plain c) ∧ k = render false ts := by
  obtain ⟨h1, h2⟩ := h.good.file k r hr
  exact ⟨h2, down_elems h1 (h.down k ((Map.mem_keys_iff _ _).mpr (by rw [hr]; simp)))⟩

namespace Spec

/-- the files that are added before RECORD: INSTALLER, and direct_url.json if there is something to record; all others
are as before -/
def Noted (installer : Str) (url : Option Json.DirectURL) (t : Int) (dir : Str) (m m' : Map Ref) : Prop :=
  m'.get? (dir ++ "/INSTALLER".toList) = some (memFile t (dir ++ "/INSTALLER".toList) 0o644 (enc (installer ++ "\n".toList))) ∧
  (∀ d, url = some d → ∃ text, Json.jsonDumps d.doc = some text ∧
    m'.get? (dir ++ "/direct_url.json".toList) = some (memFile t (dir ++ "/direct_url.json".toList) 0o644 (enc text))) ∧
  ∀ n, n ≠ dir ++ "/INSTALLER".toList → n ≠ dir ++ "/RECORD".toList → (n = dir ++ "/direct_url.json".toList → url = none) → m'.get? n = m.get? n

end Spec

theorem slash_render {cs : List Str} {x : Str} (hne : cs ≠ []) : render false (cs ++ [x]) = render false cs ++ '/' :: x := render_snoc hne

section
variable {cs : List Str} {info : Str} (hp : ∀ c ∈ cs ++ [info], Plain c)
include hp

theorem info_join {x : Str} (hx : Plain x) :
    pathJoin [render false (cs ++ [info]), x] = render false (cs ++ [info]) ++ '/' :: x ∧
    render false (cs ++ [info]) ++ '/' :: x = render false (cs ++ [info] ++ [x]) := by
  rw [join_snoc hp hx]
  exact ⟨slash_render (by simp), (slash_render (by simp)).symm⟩

theorem recordMeta_ok {installer : Str} {url : Option Json.DirectURL} {t : Int} {m m1 : Map Ref}
    (h : recordMeta installer url t m (render false (cs ++ [info])) = .ok m1) :
    Spec.Noted installer url t (render false (cs ++ [info])) m m1 ∧
    m1.get? (render false (cs ++ [info]) ++ "/RECORD".toList) = m.get? (render false (cs ++ [info]) ++ "/RECORD".toList) ∧
    (Tame m → Tame m1) ∧ (Good m → Good m1) := by
  have hI : Plain "INSTALLER".toList := by unfold Plain; decide +kernel
  have hU : Plain "direct_url.json".toList := by unfold Plain; decide +kernel
  obtain ⟨i1, i2⟩ := info_join hp hI
  obtain ⟨u1, u2⟩ := info_join hp hU
  have hne1 : ∀ x : Str, x ++ '/' :: "INSTALLER".toList ≠ x ++ '/' :: "direct_url.json".toList := by
    intro x e; exact absurd (List.append_cancel_left e) (by decide)
  have hne2 : ∀ x : Str, x ++ '/' :: "RECORD".toList ≠ x ++ '/' :: "direct_url.json".toList := by
    intro x e; exact absurd (List.append_cancel_left e) (by decide)
  have hne3 : ∀ x : Str, x ++ '/' :: "RECORD".toList ≠ x ++ '/' :: "INSTALLER".toList := by
    intro x e; exact absurd (List.append_cancel_left e) (by decide)
  have rw1 : ∀ x : Str, x ++ "/INSTALLER".toList = x ++ '/' :: "INSTALLER".toList := fun _ => rfl
  have rw2 : ∀ x : Str, x ++ "/direct_url.json".toList = x ++ '/' :: "direct_url.json".toList := fun _ => rfl
  have rw3 : ∀ x : Str, x ++ "/RECORD".toList = x ++ '/' :: "RECORD".toList := fun _ => rfl
  have hpl : ∀ {x : Str}, Plain x → ∀ c ∈ cs ++ [info] ++ [x], Plain c := by
    intro x hx c hc
    rcases List.mem_append.mp hc with h | h
    · exact hp c h
    · rw [List.mem_singleton] at h; subst h; exact hx
  unfold recordMeta at h
  simp only at h
  rw [i1] at h
  unfold Spec.Noted
  rw [rw1, rw2, rw3]
  cases url with
  | none =>
    simp only at h
    cases h
    refine ⟨⟨by rw [Map.get?_set, if_pos rfl]; rfl, fun d hd => (nomatch hd), ?_⟩, ?_, ?_, ?_⟩
    · intro n h1 _ _
      rw [Map.get?_set, if_neg h1]
    · rw [Map.get?_set, if_neg (hne3 _)]
    · intro hm; rw [i2]; exact hm.set (hpl hI) rfl
    · intro hm; rw [i2]; exact hm.set (rel_of_render (hpl hI)) rfl
  | some d =>
    simp only [directUrlHook] at h
    rw [u1] at h
    cases hj : Json.jsonDumps d.doc with
    | none => rw [hj] at h; cases h
    | some text =>
      rw [hj] at h
      cases h
      refine ⟨⟨?_, ?_, ?_⟩, ?_, ?_, ?_⟩
      · rw [Map.get?_set, if_neg (hne1 _), Map.get?_set, if_pos rfl]; rfl
      · rintro d' e
        cases e
        exact ⟨text, hj, by rw [Map.get?_set, if_pos rfl]⟩
      · intro n h1 _ h3
        rw [Map.get?_set, if_neg (fun e => by cases h3 e), Map.get?_set, if_neg h1]
      · rw [Map.get?_set, if_neg (hne2 _), Map.get?_set, if_neg (hne3 _)]
      · intro hm
        have := hm.set (hpl hI) (r := memFile t (render false (cs ++ [info]) ++ '/' :: "INSTALLER".toList) 0o644 (enc (installer ++ ['\n']))) i2
        rw [← i2] at this
        have := this.set (hpl hU) (r := memFile t (render false (cs ++ [info]) ++ '/' :: "direct_url.json".toList) 0o644 (enc text)) u2
        rw [← u2] at this
        exact this
      · intro hm
        have := hm.set (rel_of_render (hpl hI)) (r := memFile t (render false (cs ++ [info]) ++ '/' :: "INSTALLER".toList) 0o644 (enc (installer ++ ['\n']))) i2
        rw [← i2] at this
        have := this.set (rel_of_render (hpl hU)) (r := memFile t (render false (cs ++ [info]) ++ '/' :: "direct_url.json".toList) 0o644 (enc text)) u2
        rw [← u2] at this
        exact this

end

namespace Spec

/-- `row` is the row for the file `n`, as it is in `m`: the path that leads to it from the directory `base`, with nothing
else for RECORD itself -/
def RowOf (digest : Str → Bytes → Str) (algo base record : Str) (m : Map Ref) (n : Str) (row : List Str) : Prop :=
  ∃ r name hash size, m.get? n = some r ∧ r.isDir = false ∧ row = [name, hash, size] ∧ Leads base n name ∧
    (n = record → hash = [] ∧ size = []) ∧ (n ≠ record → RowFor digest algo name r hash size)

/-- the hash algorithm -/
def algorithm (hashName : Str) : Str := if hashName = [] then "sha256".toList else hashName

end Spec

/-- **C51**.  Let `base` be the directory with the elements `cs`, and `base`/`info` the `.dist-info` directory of an installed
wheel that has no RECORD yet, none of whose files' names leads upwards.  If the hook succeeds, whatever the order of its
loop, INSTALLER and direct_url.json are there, and RECORD is there, with rows in increasing order of their names, no name
twice; they are exactly the rows of the files there are then, including RECORD itself. -/
theorem C51_record (env : HookEnv) (hsort : SortSlice env.sortRows) (order : Map Ref → Map Ref) (ho : ∀ m, (order m).Perm m)
    (hashName installer : Str) (url : Option Json.DirectURL) (t : Int) (m : Map Ref) (hm : Tame m) (cs : List Str) (info : Str)
    (hp : ∀ c ∈ cs ++ [info], Plain c) (hnew : render false (cs ++ [info]) ++ "/RECORD".toList ∉ m.keys) (m' : Map Ref)
    (h : recordHook env order hashName installer url t m (render false (cs ++ [info])) = .ok m') :
    Spec.Noted installer url t (render false (cs ++ [info])) m m' ∧ Tame m' ∧
    ∃ rows, m'.get? (render false (cs ++ [info]) ++ "/RECORD".toList) =
        some (memFile t (render false (cs ++ [info]) ++ "/RECORD".toList) 0o644 (env.csvWrite rows)) ∧
      rows.Pairwise (fun a b => a.headD [] < b.headD []) ∧
      ∀ row, row ∈ rows ↔ ∃ n, Spec.RowOf env.digest (Spec.algorithm hashName) (render false cs)
        (render false (cs ++ [info]) ++ "/RECORD".toList) m' n row := by
  have hR : Plain "RECORD".toList := by unfold Plain; decide +kernel
  obtain ⟨r1, r2⟩ := info_join hp hR
  have hpcs : ∀ c ∈ cs, Plain c := fun c hc => hp c (List.mem_append_left _ hc)
  have hinfo : Plain info := hp info (by simp)
  have rw3 : render false (cs ++ [info]) ++ "/RECORD".toList = render false (cs ++ [info]) ++ '/' :: "RECORD".toList := rfl
  unfold recordHook at h
  simp only at h
  cases hmeta : recordMeta installer url t m (render false (cs ++ [info])) with
  | error e => rw [hmeta] at h; cases h
  | ok m1 =>
    rw [hmeta] at h
    simp only at h
    obtain ⟨n1, n2, n3, _⟩ := recordMeta_ok hp hmeta
    have hm1 := n3 hm
    have hal : (if hashName = [] then "sha256".toList else hashName) = Spec.algorithm hashName := rfl
    rw [hal] at h
    split at h
    · cases h
    · rename_i halgo
      rw [pathDir_render (plain_clean hp)] at h
      cases hrows : recordRows env (Spec.algorithm hashName) (render false cs) (order m1) with
      | error e => rw [hrows] at h; cases h
      | ok rows =>
        rw [hrows] at h
        simp only [Except.ok.injEq] at h
        have hbase : pathJoin [pathBase (render false (cs ++ [info])), "RECORD".toList] = render false ([info] ++ ["RECORD".toList]) := by
          rw [Squash.pathBase_render hinfo]
          have hr : render false [info] = info := by simp [render, join]
          have := join_snoc (cs := [info]) (by simpa using hinfo) hR
          rw [hr] at this
          exact this
        rw [hbase, r1, ← rw3] at h
        obtain ⟨a1, a2⟩ := recordRows_ok hrows
        have hperm := ho m1
        have hrec1 : m1.get? (render false (cs ++ [info]) ++ "/RECORD".toList) = none := by
          rw [n2]
          rw [Map.mem_keys_iff, Classical.not_not] at hnew
          exact hnew
        -- the files of the loop
        have hent : ∀ e, e ∈ order m1 ↔ m1.get? e.1 = some e.2 := by
          intro e
          rw [hperm.mem_iff]
          exact ⟨fun hm => Map.get?_of_mem hm1.good.wf hm, fun hg => Map.mem_of_get? hg⟩
        have hleads : ∀ e ∈ order m1, Spec.Leads (render false cs) e.1 (filepathRel ('/' :: render false cs) ('/' :: e.2.fullName)) := by
          intro e he
          obtain ⟨f1, ts, f2, f3⟩ := hm1.elems ((hent e).mp he)
          rw [f1, f3]
          exact leads_rel hpcs f2
        have hrecLeads : Spec.Leads (render false cs) (render false (cs ++ [info]) ++ "/RECORD".toList) (render false ([info] ++ ["RECORD".toList])) := by
          refine ⟨cs, [], [info] ++ ["RECORD".toList], ?_, by simp, by rw [rw3, r2]; simp, fun _ hx => (nomatch hx), rfl⟩
          intro c hc
          simp only [List.nil_append, List.mem_append, List.mem_singleton] at hc
          rcases hc with hc | rfl | rfl
          · exact hpcs c hc
          · exact hinfo
          · exact hR
        have hnd : ((([render false ([info] ++ ["RECORD".toList]), [], []] : List Str) :: rows).map (fun row => row.headD [])).Nodup := by
          rw [List.map_cons, a2, List.nodup_cons]
          constructor
          · intro hmem
            obtain ⟨e, he, hn⟩ := List.mem_map.mp hmem
            obtain ⟨he, _⟩ := List.mem_filter.mp he
            have := hleads e he
            rw [hn] at this
            have hk := leads_inj hrecLeads this
            have hg := (hent e).mp he
            rw [← hk, hrec1] at hg
            cases hg
          · refine List.pairwise_map.mpr ?_
            have hkeys : (order m1).Pairwise (fun a b => a.1 ≠ b.1) := by
              have : ((order m1).map (fun e : Str × Ref => e.1)).Nodup := (hperm.map (fun e : Str × Ref => e.1)).nodup_iff.mpr hm1.good.wf
              exact List.pairwise_map.mp this
            refine (hkeys.sublist List.filter_sublist).imp_of_mem ?_
            intro a b ha hb hab e
            have h1 := hleads a (List.mem_filter.mp ha).1
            have h2 := hleads b (List.mem_filter.mp hb).1
            rw [e] at h1
            exact hab (leads_inj h1 h2)
        subst h
        refine ⟨⟨?_, ?_, ?_⟩, ?_, ?_⟩
        · rw [Map.get?_set, if_neg (fun e => by exact absurd (List.append_cancel_left e) (by decide))]
          exact n1.1
        · intro d hd
          obtain ⟨text, t1, t2⟩ := n1.2.1 d hd
          refine ⟨text, t1, ?_⟩
          rw [Map.get?_set, if_neg (fun e => by exact absurd (List.append_cancel_left e) (by decide))]
          exact t2
        · intro n q1 q2 q3
          rw [Map.get?_set, if_neg q2]
          exact n1.2.2 n q1 q2 q3
        · rw [rw3, r2]
          refine hm1.set ?_ rfl
          intro c hc
          rcases List.mem_append.mp hc with h | h
          · exact hp c h
          · rw [List.mem_singleton] at h; subst h; exact hR
        · refine ⟨_, by rw [Map.get?_set, if_pos rfl], rows_sorted hsort hnd, ?_⟩
          intro row
          rw [(hsort.perm _ _).mem_iff, List.mem_cons, a1]
          constructor
          · rintro (rfl | ⟨e, he, hd, hf⟩)
            · exact ⟨_, _, _, _, _, by rw [Map.get?_set, if_pos rfl], rfl, rfl, hrecLeads, fun _ => ⟨rfl, rfl⟩, fun hx => absurd rfl hx⟩
            · obtain ⟨hash, size, rfl, hrow⟩ := recordFile_ok.mp hf
              have hg := (hent e).mp he
              have hner : e.1 ≠ render false (cs ++ [info]) ++ "/RECORD".toList := by
                intro hx
                rw [hx, hrec1] at hg; cases hg
              exact ⟨e.1, e.2, _, hash, size, by rw [Map.get?_set, if_neg hner]; exact hg, hd, rfl, hleads e he,
                fun hx => absurd hx hner, fun _ => hrow⟩
          · rintro ⟨n, r, name, hash, size, g1, g2, rfl, g4, g5, g6⟩
            rw [Map.get?_set] at g1
            split at g1
            · rename_i hn
              rw [hn] at g4 g5
              left
              obtain ⟨rfl, rfl⟩ := g5 rfl
              rw [leads_fun g4 hrecLeads]
            · rename_i hn
              right
              have he : (n, r) ∈ order m1 := (hent (n, r)).mpr g1
              refine ⟨(n, r), he, g2, ?_⟩
              rw [recordFile_ok]
              have hl := hleads (n, r) he
              have hname := leads_fun g4 hl
              rw [← hname]
              exact ⟨hash, size, rfl, g6 hn⟩

theorem recordRows_env (env : HookEnv) (s : (List Str → List Str → Bool) → List (List Str) → List (List Str)) (algo base : Str) (l : List (Str × Ref)) :
    recordRows { env with sortRows := s } algo base l = recordRows env algo base l := by
  have hf : ∀ r, recordFile { env with sortRows := s } algo base r = recordFile env algo base r := by
    intro r
    cases r with
    | zip h b c => cases c <;> rfl
    | other f => rfl
  induction l with
  | nil => rfl
  | cons e es ih => unfold recordRows; rw [ih, hf]

/-- **C51**: the path in a row of RECORD leads from the directory of the `.dist-info` directory to the file. -/
theorem C51_paths {base n name : Str} (h : Spec.Leads base n name) : pathJoin [base, name] = n := leads_join h

/-- **C51**: whether the hook succeeds and what files it leaves does not depend on the order of its loop, nor on how the rows
are sorted. -/
theorem C51_order (env : HookEnv) (sortRows' : (List Str → List Str → Bool) → List (List Str) → List (List Str)) (hsort : SortSlice env.sortRows)
    (hsort' : SortSlice sortRows') (order order' : Map Ref → Map Ref)
    (ho : ∀ m, (order m).Perm m) (ho' : ∀ m, (order' m).Perm m) (hashName installer : Str) (url : Option Json.DirectURL) (t : Int)
    (m m2 : Map Ref) (hm : Tame m) (hm2 : Tame m2) (hs : Map.Same m m2) (cs : List Str) (info : Str) (hp : ∀ c ∈ cs ++ [info], Plain c)
    (hnew : render false (cs ++ [info]) ++ "/RECORD".toList ∉ m.keys) :
    (recordHook env order hashName installer url t m (render false (cs ++ [info])) = .error () ∧
     recordHook { env with sortRows := sortRows' } order' hashName installer url t m2 (render false (cs ++ [info])) = .error ()) ∨
    ∃ a a', recordHook env order hashName installer url t m (render false (cs ++ [info])) = .ok a ∧
      recordHook { env with sortRows := sortRows' } order' hashName installer url t m2 (render false (cs ++ [info])) = .ok a' ∧ Map.Same a a' ∧ Tame a ∧ Tame a' := by
  have hnew2 : render false (cs ++ [info]) ++ "/RECORD".toList ∉ m2.keys := by
    rw [Map.mem_keys_iff, ← hs, ← Map.mem_keys_iff]; exact hnew
  -- both succeed or none
  have hok : (∃ a, recordHook env order hashName installer url t m (render false (cs ++ [info])) = .ok a) ↔
      ∃ a, recordHook { env with sortRows := sortRows' } order' hashName installer url t m2 (render false (cs ++ [info])) = .ok a := by
    have key : ∀ (s : (List Str → List Str → Bool) → List (List Str) → List (List Str)) (o : Map Ref → Map Ref) (m : Map Ref),
        (∃ a, recordHook { env with sortRows := s } o hashName installer url t m (render false (cs ++ [info])) = .ok a) ↔
        ∃ m1, recordMeta installer url t m (render false (cs ++ [info])) = .ok m1 ∧ (Spec.algorithm hashName) ∈ guaranteed ∧
          ¬ recordRows env (Spec.algorithm hashName) (pathDir (render false (cs ++ [info]))) (o m1) = .error () := by
      intro s o m
      unfold recordHook
      simp only
      cases hmeta : recordMeta installer url t m (render false (cs ++ [info])) with
      | error e =>
        constructor
        · rintro ⟨a, ha⟩; cases ha
        · rintro ⟨m1, h1, _⟩; cases h1
      | ok m1 =>
        simp only
        have hal : (if hashName = [] then "sha256".toList else hashName) = Spec.algorithm hashName := rfl
        rw [hal]
        by_cases hg : Spec.algorithm hashName ∈ guaranteed
        · rw [if_neg (by simpa using hg)]
          have hen : recordRows { env with sortRows := s } (Spec.algorithm hashName) (pathDir (render false (cs ++ [info]))) (o m1) =
            recordRows env (Spec.algorithm hashName) (pathDir (render false (cs ++ [info]))) (o m1) := recordRows_env ..
          rw [hen]
          cases hrows : recordRows env (Spec.algorithm hashName) (pathDir (render false (cs ++ [info]))) (o m1) with
          | error e =>
            constructor
            · rintro ⟨a, ha⟩; cases ha
            · rintro ⟨m1', h1, _, h3⟩; cases h1; exact absurd hrows h3
          | ok rows =>
            refine ⟨fun _ => ⟨m1, rfl, hg, by rw [hrows]; exact fun e => (nomatch e)⟩, fun _ => ⟨_, rfl⟩⟩
        · rw [if_pos hg]
          constructor
          · rintro ⟨a, ha⟩; cases ha
          · rintro ⟨_, _, h2, _⟩; exact absurd h2 hg
    have hmetaSame : ∀ {m m2 : Map Ref}, Map.Same m m2 → ∀ {m1 : Map Ref}, recordMeta installer url t m (render false (cs ++ [info])) = .ok m1 →
        ∃ m3, recordMeta installer url t m2 (render false (cs ++ [info])) = .ok m3 ∧ Map.Same m1 m3 := by
      intro m m2 hs m1 h
      unfold recordMeta at h ⊢
      simp only at h ⊢
      cases url with
      | none => cases h; exact ⟨_, rfl, hs.set _ _⟩
      | some d =>
        simp only [directUrlHook] at h ⊢
        cases hj : Json.jsonDumps d.doc with
        | none => rw [hj] at h; cases h
        | some text => rw [hj] at h; cases h; exact ⟨_, rfl, (hs.set _ _).set _ _⟩
    have hrowsSame : ∀ {o o2 : Map Ref → Map Ref}, (∀ m, (o m).Perm m) → (∀ m, (o2 m).Perm m) → ∀ {m1 m3 : Map Ref}, m1.WF → m3.WF → Map.Same m1 m3 →
        ∀ base, recordRows env (Spec.algorithm hashName) base (o2 m3) = .error () → recordRows env (Spec.algorithm hashName) base (o m1) = .error () := by
      intro o o2 ho ho2 m1 m3 w1 w3 hs base h
      rw [recordRows_error] at h ⊢
      obtain ⟨e, he, h1⟩ := h
      refine ⟨e, ?_, h1⟩
      rw [(ho m1).mem_iff]
      rw [(ho2 m3).mem_iff] at he
      exact ((Map.Same.perm w1 w3 hs).mem_iff).mpr he
    rw [show (recordHook env order = recordHook { env with sortRows := env.sortRows } order) from rfl, key, key]
    constructor
    · rintro ⟨m1, h1, h2, h3⟩
      obtain ⟨m3, h4, h5⟩ := hmetaSame hs h1
      exact ⟨m3, h4, h2, fun he => h3 (hrowsSame ho ho' ((recordMeta_ok hp h1).2.2.2 hm.good).wf ((recordMeta_ok hp h4).2.2.2 hm2.good).wf h5 _ he)⟩
    · rintro ⟨m3, h1, h2, h3⟩
      obtain ⟨m1, h4, h5⟩ := hmetaSame hs.symm h1
      exact ⟨m1, h4, h2, fun he => h3 (hrowsSame ho' ho ((recordMeta_ok hp h1).2.2.2 hm2.good).wf ((recordMeta_ok hp h4).2.2.2 hm.good).wf h5 _ he)⟩
  cases ha : recordHook env order hashName installer url t m (render false (cs ++ [info])) with
  | error e =>
    left
    refine ⟨rfl, ?_⟩
    cases ha' : recordHook { env with sortRows := sortRows' } order' hashName installer url t m2 (render false (cs ++ [info])) with
    | error e => rfl
    | ok a' =>
      obtain ⟨a, hx⟩ := hok.mpr ⟨a', ha'⟩
      rw [ha] at hx; cases hx
  | ok a =>
    right
    obtain ⟨a', ha'⟩ := hok.mp ⟨a, ha⟩
    refine ⟨a, a', rfl, ha', ?_⟩
    obtain ⟨x1, x2, rows, x3, x4, x5⟩ := C51_record env hsort order ho hashName installer url t m hm cs info hp hnew a ha
    obtain ⟨y1, y2, rows', y3, y4, y5⟩ := C51_record { env with sortRows := sortRows' } hsort' order' ho' hashName installer url t m2 hm2 cs info hp hnew2 a' ha'
    -- all files but RECORD
    have hrest : ∀ n, n ≠ render false (cs ++ [info]) ++ "/RECORD".toList → a.get? n = a'.get? n := by
      intro n hn
      by_cases hi : n = render false (cs ++ [info]) ++ "/INSTALLER".toList
      · rw [hi, x1.1, y1.1]
      · by_cases hu : n = render false (cs ++ [info]) ++ "/direct_url.json".toList ∧ url ≠ none
        · obtain ⟨rfl, hu⟩ := hu
          obtain ⟨d, rfl⟩ := Option.ne_none_iff_exists'.mp hu
          obtain ⟨t1, p1, p2⟩ := x1.2.1 d rfl
          obtain ⟨t2, q1, q2⟩ := y1.2.1 d rfl
          rw [p1] at q1
          cases q1
          rw [p2, q2]
        · have hu' : n = render false (cs ++ [info]) ++ "/direct_url.json".toList → url = none := by
            intro e
            exact Classical.byContradiction fun hc => hu ⟨e, hc⟩
          rw [x1.2.2 n hi hn hu', y1.2.2 n hi hn hu', hs]
    have hrows : rows = rows' := by
      refine sorted_ext x4 y4 ?_
      have half : ∀ {b b' : Map Ref} {d : Str → Bytes → Str} {al ba re : Str} {row : List Str} {n : Str},
          (∀ n, n ≠ re → b.get? n = b'.get? n) → (∃ r, b'.get? re = some r ∧ r.isDir = false) →
          Spec.RowOf d al ba re b n row → Spec.RowOf d al ba re b' n row := by
        rintro b b' d al ba re row n hbb ⟨r0, hr0, hd0⟩ ⟨r, name, hash, size, g1, g2, g3, g4, g5, g6⟩
        by_cases hn : n = re
        · subst hn
          exact ⟨r0, name, hash, size, hr0, hd0, g3, g4, g5, fun hx => absurd rfl hx⟩
        · exact ⟨r, name, hash, size, by rw [← hbb n hn]; exact g1, g2, g3, g4, g5, g6⟩
      intro row
      rw [x5, y5]
      constructor
      · rintro ⟨n, hx⟩
        exact ⟨n, half hrest ⟨_, y3, rfl⟩ hx⟩
      · rintro ⟨n, hx⟩
        exact ⟨n, half (fun n hn => (hrest n hn).symm) ⟨_, x3, rfl⟩ hx⟩
    refine ⟨?_, x2, y2⟩
    intro n
    by_cases hn : n = render false (cs ++ [info]) ++ "/RECORD".toList
    · rw [hn, x3, y3, hrows]
    · exact hrest n hn

namespace Spec

/-- RECORD cannot be written because of the file `n`: it is neither byte code nor a script that has been rewritten, and
cannot be read -/
def Unreadable (base : Str) (m : Map Ref) (n : Str) : Prop :=
  ∃ r, m.get? n = some r ∧ r.isDir = false ∧ (¬ ∃ h c rec, r = .zip h c (some rec)) ∧ r.content = none ∧
    ∃ name, Leads base n name ∧ ¬ ∃ b, name = b ++ ".pyc".toList

end Spec

theorem recordFile_error {env : HookEnv} {algo base : Str} {r : Ref} : recordFile env algo base r = .error () ↔
    (¬ ∃ h c rec, r = .zip h c (some rec)) ∧ r.content = none ∧ ¬ ∃ b, filepathRel ('/' :: base) ('/' :: r.fullName) = b ++ ".pyc".toList := by
  by_cases hr : ∃ h c rec, r = .zip h c (some rec)
  · obtain ⟨h, c, rec, rfl⟩ := hr
    rw [recordFile_zip]
    exact ⟨fun x => (nomatch x), fun ⟨x, _⟩ => absurd ⟨h, c, rec, rfl⟩ x⟩
  · rw [recordFile_plain env algo base hr]
    by_cases hp : hasSuffix (filepathRel ('/' :: base) ('/' :: r.fullName)) ".pyc".toList = true
    · rw [if_pos hp]
      exact ⟨fun x => (nomatch x), fun ⟨_, _, x⟩ => absurd ((hasSuffix_iff _ _).mp hp) x⟩
    · rw [if_neg hp]
      rw [hasSuffix_iff] at hp
      cases hc : r.content with
      | none => exact ⟨fun _ => ⟨hr, rfl, hp⟩, fun _ => rfl⟩
      | some c => exact ⟨fun x => (nomatch x), fun ⟨_, x, _⟩ => (nomatch x)⟩

/-- **C51**: the hook fails exactly if the hash is not one of those that are guaranteed, or if a file of the wheel whose digest is
needed cannot be read. -/
theorem C51_error (env : HookEnv) (order : Map Ref → Map Ref) (ho : ∀ m, (order m).Perm m)
    (hashName installer : Str) (url : Option Json.DirectURL) (t : Int) (m : Map Ref) (hm : Tame m) (cs : List Str) (info : Str)
    (hp : ∀ c ∈ cs ++ [info], Plain c) :
    recordHook env order hashName installer url t m (render false (cs ++ [info])) = .error () ↔
      Spec.algorithm hashName ∉ ["md5".toList, "sha1".toList, "sha224".toList, "sha256".toList, "sha384".toList, "sha512".toList] ∨
      ∃ n, Spec.Unreadable (render false cs) m n ∧ n ≠ render false (cs ++ [info]) ++ "/INSTALLER".toList ∧
        (n = render false (cs ++ [info]) ++ "/direct_url.json".toList → url = none) := by
  have hpcs : ∀ c ∈ cs, Plain c := fun c hc => hp c (List.mem_append_left _ hc)
  have hmeta : ∃ m1, recordMeta installer url t m (render false (cs ++ [info])) = .ok m1 := by
    unfold recordMeta
    simp only
    cases url with
    | none => exact ⟨_, rfl⟩
    | some d =>
      simp only [directUrlHook]
      rw [Json.jsonDumps_actual]
      exact ⟨_, rfl⟩
  obtain ⟨m1, hmeta⟩ := hmeta
  obtain ⟨n1, n2, n3, _⟩ := recordMeta_ok hp hmeta
  have hm1 := n3 hm
  have hrows : recordRows env (Spec.algorithm hashName) (render false cs) (order m1) = .error () ↔
      ∃ n, Spec.Unreadable (render false cs) m n ∧ n ≠ render false (cs ++ [info]) ++ "/INSTALLER".toList ∧
        (n = render false (cs ++ [info]) ++ "/direct_url.json".toList → url = none) := by
    rw [recordRows_error]
    constructor
    · rintro ⟨e, he, hd, hf⟩
      rw [recordFile_error] at hf
      obtain ⟨f1, f2, f3⟩ := hf
      have hg : m1.get? e.1 = some e.2 := Map.get?_of_mem hm1.good.wf ((ho m1).mem_iff.mp he)
      obtain ⟨g1, ts, g2, g3⟩ := hm1.elems hg
      have hi : e.1 ≠ render false (cs ++ [info]) ++ "/INSTALLER".toList := by
        intro hx
        rw [hx, n1.1] at hg
        rw [← Option.some.inj hg] at f2
        cases f2
      have hu : e.1 = render false (cs ++ [info]) ++ "/direct_url.json".toList → url = none := by
        intro hx
        cases url with
        | none => rfl
        | some d =>
          obtain ⟨text, _, h2⟩ := n1.2.1 d rfl
          rw [hx, h2] at hg
          rw [← Option.some.inj hg] at f2
          cases f2
      have hold : m.get? e.1 = some e.2 := by
        by_cases hr : e.1 = render false (cs ++ [info]) ++ "/RECORD".toList
        · rw [← hg, hr, n2]
        · rw [← n1.2.2 _ hi hr hu, hg]
      refine ⟨e.1, ⟨e.2, hold, hd, f1, f2, _, ?_, f3⟩, hi, hu⟩
      rw [g1, g3]
      exact leads_rel hpcs g2
    · rintro ⟨n, ⟨r, hold, hd, f1, f2, name, hl, hnp⟩, hi, hu⟩
      have hg : m1.get? n = some r := by
        by_cases hr : n = render false (cs ++ [info]) ++ "/RECORD".toList
        · rw [← hold, hr, n2]
        · rw [n1.2.2 _ hi hr hu, hold]
      obtain ⟨g1, ts, g2, g3⟩ := hm1.elems hg
      refine ⟨(n, r), (ho m1).mem_iff.mpr (Map.mem_of_get? hg), hd, ?_⟩
      rw [recordFile_error]
      refine ⟨f1, f2, ?_⟩
      have hl2 := leads_rel hpcs g2
      rw [← g3, ← g1] at hl2
      rw [g1] at hl2
      rw [g1, ← leads_fun hl hl2]
      exact hnp
  rw [← hrows]
  unfold recordHook
  simp only
  rw [hmeta]
  simp only
  have hal : (if hashName = [] then "sha256".toList else hashName) = Spec.algorithm hashName := rfl
  have hgu : guaranteed = ["md5".toList, "sha1".toList, "sha224".toList, "sha256".toList, "sha384".toList, "sha512".toList] := rfl
  rw [hal, ← hgu]
  by_cases hg : Spec.algorithm hashName ∈ guaranteed
  · rw [if_neg (by simpa using hg), pathDir_render (plain_clean hp)]
    cases hr : recordRows env (Spec.algorithm hashName) (render false cs) (order m1) with
    | error e => simp
    | ok rows => simp [hg]
  · rw [if_pos hg]
    exact ⟨fun _ => Or.inl hg, fun _ => rfl⟩

/-! ### Samples -/

/-- a toy outside world; `csv.Writer` for fields that need no quotes -/
def toyHookEnv : HookEnv :=
  { digest := toyDigest, csvWrite := fun rows => rows.flatMap (fun row => enc (join ",".toList row ++ "\r\n".toList)),
    sortRows := insertionSort, decode := fun b => b.map (fun x => Char.ofNat x.toNat) }

/-- the hook on the installed sample archive -/
def toyHooked (hook : Hook) : Option (Map Ref) :=
  match sanitizePlatform toyPlat with
  | .error _ => none
  | .ok p => match vfsOnce (fun l => l.headD []) (toyEnv toyZip) p none 7 toyZip with
    | .ok (m, dir) => (hook 7 m dir).toOption
    | _ => none

/-- the RECORD of the installed sample archive: the script outside the directory is found with "..", INSTALLER and RECORD
itself are in the list -/
example : (toyHooked (recordHook toyHookEnv id [] "me".toList none)).bind (fun m => (m.get? "l/pure/x.dist-info/RECORD".toList).bind Ref.content) =
    some (toyHookEnv.csvWrite [
      ["../../bin/run".toList, "sha256=".toList ++ toyDigest "sha256".toList (enc "#!python\n".toList), "9".toList],
      ["../../d/e/f".toList, "sha256=".toList ++ toyDigest "sha256".toList [7], "1".toList],
      ["m/a.py".toList, "sha256=".toList ++ toyDigest "sha256".toList [1, 2], "2".toList],
      ["x.dist-info/INSTALLER".toList, "sha256=".toList ++ toyDigest "sha256".toList (enc "me\n".toList), "3".toList],
      ["x.dist-info/RECORD".toList, [], []],
      ["x.dist-info/WHEEL".toList, "sha256=".toList ++ toyDigest "sha256".toList [3], "1".toList]]) := by decide +kernel

theorem tame_check {m : Map Ref} (hw : (m.map (fun e : Str × Ref => e.1)).Nodup)
    (h : ∀ e ∈ m, e.2.fullName = e.1 ∧ clean e.1 = e.1 ∧ isRooted e.1 = false ∧ "..".toList ∉ cleanElems false (split '/' e.1)) : Tame m := by
  refine ⟨⟨hw, ?_⟩, ?_⟩
  · intro k r hr
    obtain ⟨h1, h2, h3, _⟩ := h _ (Map.mem_of_get? hr)
    exact ⟨⟨h2, h3⟩, h1⟩
  · intro k hk
    obtain ⟨e, he, rfl⟩ := List.mem_map.mp hk
    rw [down_iff]
    exact (h e he).2.2.2

/-- some installed files: a module, its byte code, and a script whose first line was rewritten -/
def installedFiles : Map Ref :=
  [("l/m.py".toList, memFile 7 "l/m.py".toList 0o644 [1, 2, 3]), ("l/m.pyc".toList, memFile 7 "l/m.pyc".toList 0o644 [4]),
   ("bin/run".toList, .zip (createHdr none "bin/run".toList (sampleFile "run" [5]).hdr) (some [5, 6]) (some ("sha256=x".toList, 1)))]

/-- the hypotheses of `C51_record`, `C51_order` and `C51_error` are met by these files; and they can also be met with the hook failing -/
example : Tame installedFiles ∧ (∀ c ∈ ["l".toList] ++ ["x.dist-info".toList], Plain c) ∧
    render false (["l".toList] ++ ["x.dist-info".toList]) ++ "/RECORD".toList ∉ installedFiles.keys ∧ SortSlice toyHookEnv.sortRows ∧
    (∃ m', recordHook toyHookEnv List.reverse "md5".toList "me".toList none 7 installedFiles (render false (["l".toList] ++ ["x.dist-info".toList])) = .ok m' ∧
      m'.keys.length = 5) ∧
    recordHook toyHookEnv List.reverse "md4".toList "me".toList none 7 installedFiles (render false (["l".toList] ++ ["x.dist-info".toList])) = .error () := by
  refine ⟨tame_check (by decide +kernel) (by decide +kernel), by unfold Plain; decide +kernel, by decide +kernel, sortSlice_exists, ?_, rfl⟩
  have hk : (match recordHook toyHookEnv List.reverse "md5".toList "me".toList none 7 installedFiles (render false (["l".toList] ++ ["x.dist-info".toList])) with
    | .ok m' => decide (m'.keys.length = 5)
    | .error _ => false) = true := by decide +kernel
  split at hk
  · rename_i m' hm
    exact ⟨m', hm, of_decide_eq_true hk⟩
  · cases hk

/-- **C51**: for scripts whose first line is rewritten the row has the digest and the size of what was in the archive, not of
what is installed. -/
theorem C51_rewritten_scripts : ∃ m dir p m', sanitizePlatform toyPlat = .ok p ∧ VfsRun (toyEnv toyZip) p none 7 toyZip (.ok (m, dir)) ∧
    recordHook toyHookEnv id [] "me".toList none 7 m dir = .ok m' ∧
    ∃ r c rows, m'.get? "bin/run".toList = some r ∧ r.isDir = false ∧ r.content = some c ∧
      (m'.get? (dir ++ "/RECORD".toList)).bind Ref.content = some (toyHookEnv.csvWrite rows) ∧
      (∃ row ∈ rows, row.headD [] = "../../bin/run".toList) ∧
      (∀ row ∈ rows, row.headD [] = "../../bin/run".toList → row[1]? ≠ some ("sha256=".toList ++ toyDigest "sha256".toList c) ∧ row[2]? ≠ some (itoa c.length)) := by
  have hr := vfsOnce_run chooses_head (toyEnv toyZip) { toyPlat with scheme := ⟨"l/pure".toList, "l/plat".toList, "h".toList, "bin".toList, "d".toList⟩ } none 7 toyZip
  let rows : List (List Str) := [
      ["../../bin/run".toList, "sha256=".toList ++ toyDigest "sha256".toList (enc "#!python\n".toList), "9".toList],
      ["../../d/e/f".toList, "sha256=".toList ++ toyDigest "sha256".toList [7], "1".toList],
      ["m/a.py".toList, "sha256=".toList ++ toyDigest "sha256".toList [1, 2], "2".toList],
      ["x.dist-info/INSTALLER".toList, "sha256=".toList ++ toyDigest "sha256".toList (enc "me\n".toList), "3".toList],
      ["x.dist-info/RECORD".toList, [], []],
      ["x.dist-info/WHEEL".toList, "sha256=".toList ++ toyDigest "sha256".toList [3], "1".toList]]
  have hk : (match vfsOnce (fun l => l.headD []) (toyEnv toyZip)
      { toyPlat with scheme := ⟨"l/pure".toList, "l/plat".toList, "h".toList, "bin".toList, "d".toList⟩ } none 7 toyZip with
      | .ok (m, dir) => match recordHook toyHookEnv id [] "me".toList none 7 m dir with
        | .ok m' => match m'.get? "bin/run".toList with
          | some r => decide (r.isDir = false ∧ r.content = some (enc "#!/bin/python\n".toList) ∧
              (m'.get? (dir ++ "/RECORD".toList)).bind Ref.content = some (toyHookEnv.csvWrite rows))
          | none => false
        | .error _ => false
      | _ => false) = true := by decide +kernel
  cases hv : vfsOnce (fun l => l.headD []) (toyEnv toyZip)
      { toyPlat with scheme := ⟨"l/pure".toList, "l/plat".toList, "h".toList, "bin".toList, "d".toList⟩ } none 7 toyZip with
  | ok x =>
    obtain ⟨m, dir⟩ := x
    rw [hv] at hr hk
    simp only at hk
    split at hk
    · rename_i m' hm'
      split at hk
      · rename_i r hr'
        have hk := of_decide_eq_true hk
        exact ⟨m, dir, _, m', toy_platform, hr, hm', r, _, rows, hr', hk.1, hk.2.1, hk.2.2, ⟨_, List.mem_cons_self, rfl⟩, by decide +kernel⟩
      · cases hk
    · cases hk
  | error => rw [hv] at hk; cases hk
  | panic => rw [hv] at hk; cases hk
  | hangs => rw [hv] at hk; cases hk

end Bdist
