import Verif.Bdist.PropsRecord
/-!
C93: post-install hooks run one after the other; the REQUESTED and direct_url.json files.
-/
namespace Bdist
open Go Fsutil Python

/-- **C93**: one hook alone is that hook -/
theorem C93_single (h : Hook) (t : Int) (m : Map Ref) (dir : Str) : postInstallHooks [h] t m dir = h t m dir := by
  unfold postInstallHooks
  cases h t m dir <;> rfl

/-- **C93**: no hooks change nothing -/
theorem C93_none (t : Int) (m : Map Ref) (dir : Str) : postInstallHooks [] t m dir = .ok m := rfl

/-- **C93**: hooks run one after the other, each on the files that the ones before it left; they succeed exactly if all of them do. -/
theorem C93_sequence (as bs : List Hook) (t : Int) (m : Map Ref) (dir : Str) :
    (∀ m', postInstallHooks (as ++ bs) t m dir = .ok m' ↔
      ∃ m1, postInstallHooks as t m dir = .ok m1 ∧ postInstallHooks bs t m1 dir = .ok m') ∧
    (postInstallHooks (as ++ bs) t m dir = .error () ↔
      postInstallHooks as t m dir = .error () ∨ ∃ m1, postInstallHooks as t m dir = .ok m1 ∧ postInstallHooks bs t m1 dir = .error ()) := by
  induction as generalizing m with
  | nil =>
    constructor
    · intro m'
      constructor
      · intro h; exact ⟨m, rfl, h⟩
      · rintro ⟨m1, h1, h2⟩; cases h1; exact h2
    · constructor
      · intro h; exact Or.inr ⟨m, rfl, h⟩
      · rintro (h | ⟨m1, h1, h2⟩)
        · cases h
        · cases h1; exact h2
  | cons h as ih =>
    have e : ∀ l, postInstallHooks (h :: l) t m dir = (h t m dir).bind fun vfs => postInstallHooks l t vfs dir := fun _ => rfl
    rw [List.cons_append, e, e]
    cases h t m dir with
    | error e =>
      constructor
      · intro m'
        constructor
        · intro h; cases h
        · rintro ⟨_, h, _⟩; cases h
      · exact ⟨fun _ => Or.inl rfl, fun _ => rfl⟩
    | ok m2 => exact ih m2

namespace Spec

/-- a regular file with the given name, mode and content, and no owner -/
def NewFile (t : Int) (name : Str) (mode : Int) (content : Bytes) (r : Ref) : Prop :=
  r.fullName = name ∧ r.content = some content ∧ r.isDir = false ∧
  ∃ i, r.info = some i ∧ i.typeflag = typeReg ∧ i.size = content.length ∧ i.mode = mode ∧ i.modTime = t ∧ i.uid = 0 ∧ i.gid = 0

end Spec

theorem memFile_new (t : Int) (name : Str) (mode : Int) (content : Bytes) : Spec.NewFile t name mode content (memFile t name mode content) :=
  ⟨rfl, rfl, rfl, _, rfl, rfl, rfl, rfl, rfl, rfl, rfl⟩

theorem setFile {m : Map Ref} {cs : List Str} {info x : Str} (hp : ∀ c ∈ cs ++ [info], Plain c) (hx : Plain x) (t : Int) (c : Bytes) :
    (∃ r, (m.set (pathJoin [render false (cs ++ [info]), x]) (memFile t (pathJoin [render false (cs ++ [info]), x]) 0o644 c)).get?
        (render false (cs ++ [info]) ++ '/' :: x) = some r ∧ Spec.NewFile t (render false (cs ++ [info]) ++ '/' :: x) 0o644 c r) ∧
    (∀ n, n ≠ render false (cs ++ [info]) ++ '/' :: x →
      (m.set (pathJoin [render false (cs ++ [info]), x]) (memFile t (pathJoin [render false (cs ++ [info]), x]) 0o644 c)).get? n = m.get? n) ∧
    (Tame m → Tame (m.set (pathJoin [render false (cs ++ [info]), x]) (memFile t (pathJoin [render false (cs ++ [info]), x]) 0o644 c))) := by
  obtain ⟨e1, e2⟩ := info_join hp hx
  rw [e1]
  refine ⟨⟨_, by rw [Map.get?_set, if_pos rfl], memFile_new ..⟩, fun n hn => by rw [Map.get?_set, if_neg hn], ?_⟩
  intro hm
  rw [e2]
  refine hm.set ?_ rfl
  intro c hc
  rcases List.mem_append.mp hc with h | h
  · exact hp c h
  · rw [List.mem_singleton.mp h]; exact hx

/-- **C93**: `RecordRequested` adds the file REQUESTED to the `.dist-info` directory, empty or with the given text and a newline, and
touches nothing else. -/
theorem C93_requested (requested : Str) (t : Int) (m : Map Ref) (cs : List Str) (info : Str) (hp : ∀ c ∈ cs ++ [info], Plain c) :
    ∃ m', requestedHook requested t m (render false (cs ++ [info])) = .ok m' ∧ (Tame m → Tame m') ∧
      (∃ r c, m'.get? (render false (cs ++ [info]) ++ "/REQUESTED".toList) = some r ∧
        Spec.NewFile t (render false (cs ++ [info]) ++ "/REQUESTED".toList) 0o644 c r ∧ (requested = [] → c = []) ∧
        (requested ≠ [] → c = enc (requested ++ "\n".toList))) ∧
      ∀ n, n ≠ render false (cs ++ [info]) ++ "/REQUESTED".toList → m'.get? n = m.get? n := by
  have hx : Plain "REQUESTED".toList := by unfold Plain; decide +kernel
  obtain ⟨⟨r, h1, h2⟩, h3, h4⟩ := setFile (m := m) hp hx t (if requested = [] then [] else enc (requested ++ ['\n']))
  refine ⟨_, rfl, h4, ⟨r, _, h1, h2, fun h => if_pos h, fun h => if_neg h⟩, h3⟩

/-- **C93**: `direct_url.Record` adds direct_url.json with the JSON text (see C89) to the `.dist-info` directory and touches nothing else. -/
theorem C93_direct_url (d : Json.DirectURL) (t : Int) (m : Map Ref) (cs : List Str) (info : Str) (hp : ∀ c ∈ cs ++ [info], Plain c) :
    (∀ text, Json.jsonDumps d.doc = some text → ∃ m', directUrlHook d t m (render false (cs ++ [info])) = .ok m' ∧ (Tame m → Tame m') ∧
      (∃ r, m'.get? (render false (cs ++ [info]) ++ "/direct_url.json".toList) = some r ∧
        Spec.NewFile t (render false (cs ++ [info]) ++ "/direct_url.json".toList) 0o644 (enc text) r) ∧
      ∀ n, n ≠ render false (cs ++ [info]) ++ "/direct_url.json".toList → m'.get? n = m.get? n) ∧
    (Json.jsonDumps d.doc = none → directUrlHook d t m (render false (cs ++ [info])) = .error ()) := by
  have hx : Plain "direct_url.json".toList := by unfold Plain; decide +kernel
  constructor
  · intro text ht
    obtain ⟨h1, h3, h4⟩ := setFile (m := m) hp hx t (enc text)
    refine ⟨_, ?_, h4, h1, h3⟩
    unfold directUrlHook
    rw [ht]
  · intro ht
    unfold directUrlHook
    rw [ht]

/-- two hooks, the second of which sees what the first did -/
example : (postInstallHooks [requestedHook "# me".toList, recordHook toyHookEnv id [] "x".toList none] 5 [] "l/x.dist-info".toList).map
    (fun m => ["REQUESTED", "INSTALLER", "RECORD"].map (fun n => (m.get? ("l/x.dist-info/" ++ n).toList).bind Ref.content)) =
    .ok [some (enc "# me\n".toList), some (enc "x\n".toList), some (toyHookEnv.csvWrite
        [["x.dist-info/INSTALLER".toList, "sha256=".toList ++ toyDigest "sha256".toList (enc "x\n".toList), "2".toList],
         ["x.dist-info/RECORD".toList, [], []],
         ["x.dist-info/REQUESTED".toList, "sha256=".toList ++ toyDigest "sha256".toList (enc "# me\n".toList), "5".toList]])] := by
  decide +kernel

/-- the hypothesis of `C93_requested` and `C93_direct_url` for that directory -/
example : "l/x.dist-info".toList = render false (["l".toList] ++ ["x.dist-info".toList]) ∧ ∀ c ∈ ["l".toList] ++ ["x.dist-info".toList], Plain c := by
  unfold Plain; decide +kernel

end Bdist
