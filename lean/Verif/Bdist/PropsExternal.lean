import Verif.Bdist.ExtLemmas
import Verif.Bdist.CommandLemmas
import Verif.Squash.FSLemmas
/-!
C94: `ExternalCompiler`.
-/
namespace Bdist
open Go Fsutil Python

namespace Spec

/-- `tmp` can be made: its parents are directories, and nothing is there -/
structure NewDir (tmp : List Str) (h : Host) : Prop where
  plain : ∀ c ∈ tmp, Plain c
  notRoot : tmp ≠ []
  parents : ∀ p, p <+: tmp → p ≠ tmp → h p = some .dir
  free : ∀ p, tmp <+: p → h p = none

/-- a command that changes files below `tmp` only -/
def StaysIn (tmp : List Str) (run : Cmd → Host → Host × Bool) : Prop := ∀ c h p, ¬ tmp <+: p → (run c h).1 p = h p

/-- the content and the time of a source: those of the entry of the archive, or those of the file itself (`time.Time{}` for a
file that says nothing about itself) -/
inductive Source : Ref → Bytes → Int → Prop
  | zip (h : ZHdr) (c : Bytes) (r : Option (Str × Int)) : Source (.zip h (some c) r) c h.modified
  | other (n : Str) (i : Hdr) (c : Bytes) : Source (.other ⟨n, some i, some c⟩) c i.modTime
  | unknown (n : Str) (c : Bytes) : Source (.other ⟨n, none, some c⟩) c yearOne

/-- the file system with these sources in `tmp`: each with its content and time in its place, the directories needed for
that, and everything else as before -/
structure Sees (tmp : List Str) (info : Int → Int → Hdr) (h : Host) (srcs : List Ref) (h1 : Host) : Prop where
  source : ∀ r ∈ srcs, ∃ c t, Source r c t ∧ h1 (tmp ++ split '/' r.fullName) = some (.leaf (some c) (info c.length t))
  parents : ∀ r ∈ srcs, ∀ q x, x ≠ [] → split '/' r.fullName = q ++ x → h1 (tmp ++ q) = some .dir
  top : h1 tmp = some .dir
  nothingElse : ∀ q, q ≠ [] → h1 (tmp ++ q) ≠ none → ∃ r ∈ srcs, q <+: split '/' r.fullName
  outside : ∀ p, ¬ tmp <+: p → h1 p = h p

/-- sources that can be in one directory: they can be read, and none is a parent of another -/
def Compatible (srcs : List Ref) : Prop :=
  (∀ r ∈ srcs, r.content ≠ none ∧ r.fullName ≠ ".".toList) ∧ ∀ r ∈ srcs, ∀ r' ∈ srcs, ¬ Parent r.fullName r'.fullName

/-- the file at `q` below `tmp` is byte code -/
def IsCode (tmp : List Str) (h : Host) (q : List Str) : Prop :=
  (∃ c i, h (tmp ++ q) = some (.leaf c i)) ∧ ∃ b, join ['/'] q = b ++ ".pyc".toList

/-- the references to the byte code among the files `qs`, in this order -/
inductive Collected (tmp : List Str) (h : Host) : List (List Str) → List Ref → Prop
  | nil : Collected tmp h [] []
  | code {q qs c i rs} : IsCode tmp h q → h (tmp ++ q) = some (.leaf (some c) i) → Collected tmp h qs rs →
      Collected tmp h (q :: qs) (.other ⟨join ['/'] q, some i, some c⟩ :: rs)
  | other {q qs rs} : ¬ IsCode tmp h q → Collected tmp h qs rs → Collected tmp h (q :: qs) rs

/-- the command that is run: the words given, the directory to strip, the prefix to add, and the directory to compile; in
the environment of this process, with a fixed hash seed, the directories to import from, and the upper bound for times in seconds -/
structure Runs (e : Machine) (exe : Str) (words : List Str) (t : Int) (dirs : List Str) (cmd : Cmd) : Prop where
  exe : cmd.exe = exe
  args : cmd.args = words ++ ["-s".toList, '/' :: join ['/'] e.tmp, "-p".toList, "/".toList, '/' :: join ['/'] e.tmp]
  env : ∃ path epoch, cmd.env = e.environ ++ "PYTHONHASHSEED=0".toList :: (path ++ epoch) ∧
    (dirs = [] → path = []) ∧
    (dirs ≠ [] → ∃ own, path = ["PYTHONPATH=".toList ++ join [':'] own] ∧
      own = dirs.map (fun d => pathJoin ['/' :: join ['/'] e.tmp, d]) ++ [e.pythonPath].filter (· ≠ [])) ∧
    (t = yearOne → epoch = []) ∧
    (t ≠ yearOne → ∃ s, 1000000000 * s ≤ t ∧ t < 1000000000 * (s + 1) ∧ epoch = ["SOURCE_DATE_EPOCH=".toList ++ itoa s])

/-- `fs.WalkDir` visits files with ordinary names, each once -/
def Walks (walk : Host → Option (List (List Str))) : Prop := ∀ h qs, walk h = some qs → qs.Nodup ∧ ∀ q ∈ qs, q ≠ [] ∧ ∀ c ∈ q, Plain c

end Spec

theorem Host.set_below (h : Host) {tmp q : List Str} (n : Node) (hq : ¬ tmp <+: q) : h.set tmp n q = h q :=
  Host.set_other _ _ (fun e => hq (by rw [e]; exact List.prefix_refl _))

theorem ready_of {tmp : List Str} {h : Host} (hd : Spec.NewDir tmp h) : Ready tmp (h.set tmp .dir) := by
  constructor
  · intro p hp
    by_cases e : p = tmp
    · subst e; exact Host.set_same ..
    · rw [Host.set_other _ _ e]; exact hd.parents p hp e
  · intro q hq
    rw [Host.set_other]
    · exact hd.free _ (List.prefix_append ..)
    · intro e
      have := congrArg List.length e
      rw [List.length_append] at this
      exact hq (List.length_eq_zero_iff.mp (by omega))

/-- **C94**, first part, for sources whose names do not lead upwards (`C94_violated` shows what happens otherwise): whatever
the outcome, the compiler leaves the file system as it was, if the command does not touch files elsewhere. -/
theorem C94_restored_partial (e : Machine) (exe : Str) (words : List Str) (t : Int) (dirs : List Str) (srcs : List Ref) (h : Host)
    (hd : Spec.NewDir e.tmp h) (hrun : Spec.StaysIn e.tmp e.run) (hn : ∀ r ∈ srcs, Spec.Rel r.fullName ∧ Spec.Down r.fullName) :
    (externalCompile e exe words t dirs srcs h).1 = h := by
  have hone : ∀ q, ¬ e.tmp <+: q → (writeFiles e (h.set e.tmp .dir) srcs).1 q = h q := by
    intro q hq
    rw [writeFiles_only hd.plain hd.notRoot (fun r hr => named_of (hn r hr).1 (hn r hr).2) (ready_of hd).dirs q (fun x => hq x.1),
      Host.set_below _ _ hq]
  have hrem : ∀ h' : Host, (∀ q, ¬ e.tmp <+: q → h' q = h q) → removeAll h' e.tmp = h := by
    intro h' hh
    funext q
    unfold removeAll
    split
    · rename_i x; rw [hd.free q (List.isPrefixOf_iff_prefix.mp x)]
    · rename_i x; exact hh q (fun y => x (List.isPrefixOf_iff_prefix.mpr y))
  unfold externalCompile
  cases hx : writeFiles e (h.set e.tmp .dir) srcs with
  | mk h1 b =>
    rw [hx] at hone
    cases b with
    | false => exact hrem h1 hone
    | true =>
      have h2 := hrun (compileCmd e exe words t dirs) h1
      simp only
      cases hy : e.run (compileCmd e exe words t dirs) h1 with
      | mk h3 b =>
        rw [hy] at h2
        have : removeAll h3 e.tmp = h := hrem h3 (fun q hq => (h2 q hq).trans (hone q hq))
        cases b with
        | false => exact this
        | true =>
          simp only
          split
          · exact this
          · exact this

/-! ### what the command sees -/

theorem split_elems {r : Ref} (hr : Named r) (hne : elems r.fullName ≠ []) : split '/' r.fullName = elems r.fullName := by
  conv => lhs; rw [hr.2]
  rw [split_render (fun c hc => (hr.1 c hc).2.2.2)]
  simp [hne]

theorem dot_elems {r : Ref} (hr : Named r) : r.fullName ≠ ".".toList ↔ elems r.fullName ≠ [] := by
  constructor
  · intro h e
    apply h
    rw [hr.2, e]
    rfl
  · intro h e
    apply h
    unfold elems
    rw [e]
    decide

theorem render_join {cs : List Str} (h : cs ≠ []) : render false cs = join ['/'] cs := by unfold render; rw [if_neg (by decide), if_neg h]

theorem parent_elems {r r' : Ref} (hr : Named r) (hr' : Named r') (h0 : elems r.fullName ≠ []) :
    Spec.Parent r.fullName r'.fullName ↔ elems r.fullName <+: elems r'.fullName ∧ elems r.fullName ≠ elems r'.fullName := by
  conv => lhs; rw [hr.2, hr'.2]
  rw [parent_iff (plain_clean hr'.1)]
  constructor
  · rintro ⟨i, hi, hl, e⟩
    have hne : (elems r'.fullName).take i ≠ [] := by
      intro x
      have := congrArg List.length x
      simp only [List.length_take, List.length_nil] at this
      omega
    rw [← render_join hne] at e
    have hx := (render_inj (plain_clean hr.1) (plain_clean (fun c hc => hr'.1 c (List.take_subset _ _ hc))) e).2
    rw [hx]
    refine ⟨List.take_prefix .., fun y => ?_⟩
    have := congrArg List.length y
    rw [List.length_take] at this
    omega
  · rintro ⟨⟨x, hx⟩, hne⟩
    have hxne : x ≠ [] := by rintro rfl; exact hne (by simpa using hx)
    refine ⟨(elems r.fullName).length, List.length_pos_iff.mpr h0, ?_, ?_⟩
    · rw [← hx, List.length_append]
      have := List.length_pos_iff.mpr hxne
      omega
    · rw [← hx, List.take_left, render_join h0]

theorem compatible_iff {srcs : List Ref} (hn : ∀ r ∈ srcs, Named r) : Spec.Compatible srcs ↔ Writable srcs := by
  constructor
  · rintro ⟨h1, h2⟩
    refine ⟨fun r hr => ⟨(h1 r hr).1, (dot_elems (hn r hr)).mp (h1 r hr).2⟩, ?_⟩
    intro r hr r' hr' hp
    refine Classical.byContradiction (fun hne => h2 r hr r' hr' ?_)
    exact (parent_elems (hn r hr) (hn r' hr') ((dot_elems (hn r hr)).mp (h1 r hr).2)).mpr ⟨hp, hne⟩
  · rintro ⟨h1, h2⟩
    refine ⟨fun r hr => ⟨(h1 r hr).1, (dot_elems (hn r hr)).mpr (h1 r hr).2⟩, ?_⟩
    intro r hr r' hr' hp
    obtain ⟨a, b⟩ := (parent_elems (hn r hr) (hn r' hr') (h1 r hr).2).mp hp
    exact b (h2 r hr r' hr' a)

theorem source_iff {r : Ref} {c : Bytes} {t : Int} : Spec.Source r c t ↔ r.content = some c ∧ r.modTime = t := by
  constructor
  · rintro (_ | _ | _) <;> exact ⟨rfl, rfl⟩
  · rintro ⟨a, rfl⟩
    match r, a with
    | .zip h _ q, rfl => exact .zip h c q
    | .other ⟨n, some i, _⟩, rfl => exact .other n i c
    | .other ⟨n, none, _⟩, rfl => exact show Spec.Source _ c zeroTime from zeroTime_eq ▸ .unknown n c

theorem sees_iff {e : Machine} {h : Host} (hd : Spec.NewDir e.tmp h) {srcs : List Ref} (hn : ∀ r ∈ srcs, Named r) (hw : Writable srcs) {h1 : Host} :
    Spec.Sees e.tmp e.info h srcs h1 ↔ Written e (h.set e.tmp .dir) srcs h1 := by
  have hs : ∀ r ∈ srcs, split '/' r.fullName = elems r.fullName := fun r hr => split_elems (hn r hr) (hw.1 r hr).2
  have hr0 := ready_of hd
  constructor
  · rintro ⟨s1, s2, s3, s4, s5⟩
    refine ⟨?_, ?_, ?_⟩
    · intro r hr
      obtain ⟨c, t, hc, hx⟩ := s1 r hr
      obtain ⟨hk, rfl⟩ := source_iff.mp hc
      rw [hs r hr] at hx
      exact ⟨c, hk, hx⟩
    · rintro q r hr hq ⟨x, hx⟩
      refine s2 r hr q x ?_ ((hs r hr).trans hx.symm)
      rintro rfl
      exact hq (by simpa using hx)
    · intro p hp
      by_cases ht : e.tmp <+: p
      · obtain ⟨q, rfl⟩ := ht
        by_cases e0 : q = []
        · subst e0
          rw [List.append_nil, s3, hr0.dirs _ (List.prefix_refl _)]
        · rw [hr0.empty q e0]
          refine Classical.byContradiction (fun hx => ?_)
          obtain ⟨r, hr, hq⟩ := s4 q e0 hx
          rw [hs r hr] at hq
          exact hp q r hr hq rfl
      · rw [s5 p ht, Host.set_below _ _ ht]
  · intro hW
    refine ⟨?_, ?_, ?_, ?_, ?_⟩
    · intro r hr
      rw [hs r hr]
      obtain ⟨c, hc, hx⟩ := hW.file r hr
      exact ⟨c, _, source_iff.mpr ⟨hc, rfl⟩, hx⟩
    · intro r hr q x hx hq
      rw [hs r hr] at hq
      refine hW.dirs q r hr ?_ ⟨x, hq.symm⟩
      rintro rfl
      exact hx (List.append_cancel_left (hq.symm.trans (List.append_nil _).symm))
    · by_cases hx : ∃ r, r ∈ srcs
      · obtain ⟨r, hr⟩ := hx
        have := hW.dirs [] r hr (fun x => (hw.1 r hr).2 x.symm) List.nil_prefix
        rwa [List.append_nil] at this
      · rw [hW.rest e.tmp (fun q r hr => absurd ⟨r, hr⟩ hx)]
        exact hr0.dirs _ (List.prefix_refl _)
    · intro q hq hx
      refine Classical.byContradiction (fun hno => hx ?_)
      rw [hW.rest]
      · exact hr0.empty q hq
      · intro q' r hr hq' e0
        have := List.append_cancel_left e0
        subst this
        exact hno ⟨r, hr, by rw [hs r hr]; exact hq'⟩
    · intro p hp
      rw [hW.rest p (fun q r _ _ e0 => hp (e0 ▸ List.prefix_append ..)), Host.set_below _ _ hp]

theorem suffix_iff (s t : Str) : hasSuffix s t = true ↔ ∃ b, s = b ++ t := by
  unfold hasSuffix
  rw [List.isSuffixOf_iff_suffix]
  exact ⟨fun ⟨b, e⟩ => ⟨b, e.symm⟩, fun ⟨b, e⟩ => ⟨b, e.symm⟩⟩

theorem collect_iff {tmp : List Str} {h : Host} {qs : List (List Str)} (hq : ∀ q ∈ qs, q ≠ []) {outs : List Ref} :
    collect tmp h qs = .ok outs ↔ Spec.Collected tmp h qs outs := by
  induction qs generalizing outs with
  | nil =>
    constructor
    · intro hx; cases hx; exact .nil
    · intro hx; cases hx; rfl
  | cons q qs ih =>
    have ih := fun {o} => ih (fun x hx => hq x (by simp [hx])) (outs := o)
    have hj : render false q = join ['/'] q := render_join (hq q (by simp))
    unfold collect
    cases hn : h (tmp ++ q) with
    | none =>
      simp only
      rw [ih]
      constructor
      · intro hx; exact .other (fun ⟨⟨c, i, x⟩, _⟩ => by rw [hn] at x; cases x) hx
      · intro hx
        cases hx with
        | code _ x _ => rw [hn] at x; cases x
        | other _ x => exact x
    | some n =>
      cases n with
      | dir =>
        simp only
        rw [ih]
        constructor
        · intro hx; exact .other (fun ⟨⟨c, i, x⟩, _⟩ => by rw [hn] at x; cases x) hx
        · intro hx
          cases hx with
          | code _ x _ => rw [hn] at x; cases x
          | other _ x => exact x
      | leaf c i =>
        simp only
        by_cases hs : hasSuffix (render false q) ".pyc".toList = true
        · rw [if_pos hs]
          have hcode : Spec.IsCode tmp h q := ⟨⟨c, i, hn⟩, by rw [← hj]; exact (suffix_iff _ _).mp hs⟩
          cases c with
          | none =>
            constructor
            · intro hx; cases hx
            · intro hx
              cases hx with
              | code _ x _ => rw [hn] at x; cases x
              | other x _ => exact absurd hcode x
          | some c =>
            simp only
            constructor
            · intro hx
              cases hc : collect tmp h qs with
              | error x => rw [hc] at hx; cases hx
              | ok rs =>
                rw [hc] at hx
                cases hx
                rw [hj]
                exact .code hcode hn (ih.mp hc)
            · intro hx
              cases hx with
              | code _ x y =>
                rw [hn] at x
                cases x
                rw [ih.mpr y, hj]
              | other x _ => exact absurd hcode x
        · rw [if_neg hs, ih]
          constructor
          · intro hx; exact .other (fun ⟨_, x⟩ => hs ((suffix_iff _ _).mpr (by rw [hj]; exact x))) hx
          · intro hx
            cases hx with
            | code x _ _ => exact absurd ((suffix_iff _ _).mpr (by rw [hj]; exact x.2)) hs
            | other _ x => exact x

theorem runs_cmd (e : Machine) (exe : Str) (words : List Str) (t : Int) (dirs : List Str) (cmd : Cmd) :
    Spec.Runs e exe words t dirs cmd ↔ cmd = compileCmd e exe words t dirs := by
  have hfil : [e.pythonPath].filter (· ≠ []) = if e.pythonPath = [] then [] else [e.pythonPath] := by
    by_cases h : e.pythonPath = [] <;> simp [h]
  constructor
  · rintro ⟨h1, h2, path, epoch, h3, p1, p2, t1, t2⟩
    rw [zeroTime_eq] at t1 t2
    have hp : path = if dirs = [] then [] else
        ["PYTHONPATH=".toList ++ join [':'] (dirs.map (fun d => pathJoin [render true e.tmp, d]) ++
          (if e.pythonPath = [] then [] else [e.pythonPath]))] := by
      by_cases h : dirs = []
      · rw [if_pos h]; exact p1 h
      · rw [if_neg h]
        obtain ⟨own, x, y⟩ := p2 h
        rw [x, y, hfil]
        rfl
    have ht : epoch = if t = zeroTime then [] else ["SOURCE_DATE_EPOCH=".toList ++ itoa (t / 1000000000)] := by
      by_cases h : t = zeroTime
      · rw [if_pos h]; exact t1 h
      · rw [if_neg h]
        obtain ⟨s, a, b, c⟩ := t2 h
        have : s = t / 1000000000 := by omega
        rw [c, this]
    obtain ⟨x, y, z⟩ := cmd
    simp only at h1 h2 h3
    unfold compileCmd
    rw [h1, h2, h3, hp, ht]
    congr 1
    simp only [List.append_assoc]
    rfl
  · rintro rfl
    refine ⟨rfl, rfl, if dirs = [] then [] else
        ["PYTHONPATH=".toList ++ join [':'] (dirs.map (fun d => pathJoin [render true e.tmp, d]) ++
          (if e.pythonPath = [] then [] else [e.pythonPath]))],
      if t = zeroTime then [] else ["SOURCE_DATE_EPOCH=".toList ++ itoa (t / 1000000000)], ?_, ?_, ?_, ?_, ?_⟩
    rotate_left 1
    · exact fun h => if_pos h
    · intro h
      exact ⟨_, if_neg h, by rw [hfil]; rfl⟩
    · exact fun h => if_pos (zeroTime_eq ▸ h)
    · intro h
      rw [zeroTime_eq] at h
      exact ⟨t / 1000000000, by omega, by omega, if_neg h⟩
    · unfold compileCmd
      simp only [List.append_assoc]
      rfl

/-- **C94**, second part, for sources with distinct names that do not lead upwards: the compiler succeeds exactly when the
sources can be in one directory and the command succeeds on a file system that has, in the new directory, these sources with their
contents and times and nothing else, and is otherwise unchanged; and the results are exactly the files called `….pyc` that
are visited there afterwards, with their contents. -/
theorem C94_compiled_partial (e : Machine) (exe : Str) (words : List Str) (t : Int) (dirs : List Str) (srcs : List Ref) (h : Host)
    (hd : Spec.NewDir e.tmp h) (hwalk : Spec.Walks e.walk) (hn : ∀ r ∈ srcs, Spec.Rel r.fullName ∧ Spec.Down r.fullName)
    (hnd : (srcs.map (·.fullName)).Nodup) (outs : List Ref) :
    (externalCompile e exe words t dirs srcs h).2 = .ok outs ↔
      Spec.Compatible srcs ∧ ∃ h1 cmd h2 qs, Spec.Sees e.tmp e.info h srcs h1 ∧ Spec.Runs e exe words t dirs cmd ∧
        e.run cmd h1 = (h2, true) ∧ e.walk h2 = some qs ∧ Spec.Collected e.tmp h2 qs outs := by
  have hnm : ∀ r ∈ srcs, Named r := fun r hr => named_of (hn r hr).1 (hn r hr).2
  rw [compatible_iff hnm]
  rcases writeFiles_all hd.plain hd.notRoot (ready_of hd) hnm hnd with ⟨h1, w1, w2, w3⟩ | ⟨w1, w2⟩
  · unfold externalCompile
    rw [w1]
    simp only
    constructor
    · intro hx
      cases hy : e.run (compileCmd e exe words t dirs) h1 with
      | mk h2 b =>
        rw [hy] at hx
        cases b with
        | false => cases hx
        | true =>
          simp only at hx
          cases hz : e.walk h2 with
          | none => rw [hz] at hx; cases hx
          | some qs =>
            rw [hz] at hx
            exact ⟨w2, h1, _, h2, qs, (sees_iff hd hnm w2).mpr w3, (runs_cmd ..).mpr rfl, hy, hz,
              (collect_iff (fun q hq => ((hwalk _ _ hz).2 q hq).1)).mp hx⟩
    · rintro ⟨_, h1', cmd, h2, qs, s1, s2, s3, s4, s5⟩
      have : h1' = h1 := written_unique ((sees_iff hd hnm w2).mp s1) w3
      subst this
      rw [(runs_cmd ..).mp s2] at s3
      rw [s3]
      simp only
      rw [s4]
      exact (collect_iff (fun q hq => ((hwalk _ _ s4).2 q hq).1)).mpr s5
  · constructor
    · intro hx
      unfold externalCompile at hx
      cases hy : writeFiles e (h.set e.tmp .dir) srcs with
      | mk h1 b =>
        rw [hy] at w1 hx
        simp only at w1
        subst w1
        cases hx
    · intro hx
      exact absurd hx.1 w2

/-- **C94**, third part: the order of the sources does not matter. -/
theorem C94_order_partial (e : Machine) (exe : Str) (words : List Str) (t : Int) (dirs : List Str) (srcs srcs' : List Ref) (h : Host)
    (hd : Spec.NewDir e.tmp h) (hwalk : Spec.Walks e.walk) (hn : ∀ r ∈ srcs, Spec.Rel r.fullName ∧ Spec.Down r.fullName)
    (hnd : (srcs.map (·.fullName)).Nodup) (hp : srcs'.Perm srcs) :
    (externalCompile e exe words t dirs srcs' h).2 = (externalCompile e exe words t dirs srcs h).2 := by
  have hm : ∀ r, r ∈ srcs' ↔ r ∈ srcs := fun r => hp.mem_iff
  have h1 := C94_compiled_partial e exe words t dirs srcs h hd hwalk hn hnd
  have h2 := C94_compiled_partial e exe words t dirs srcs' h hd hwalk (fun r hr => hn r ((hm r).mp hr))
    ((hp.map (fun r : Ref => r.fullName)).nodup_iff.mpr hnd)
  have hc : Spec.Compatible srcs' ↔ Spec.Compatible srcs := by
    unfold Spec.Compatible
    simp only [hm]
  have hs : ∀ h1, Spec.Sees e.tmp e.info h srcs' h1 ↔ Spec.Sees e.tmp e.info h srcs h1 := by
    intro h1
    constructor
    · rintro ⟨a, b, c, d, f⟩
      exact ⟨fun r hr => a r ((hm r).mpr hr), fun r hr => b r ((hm r).mpr hr), c,
        fun q hq hx => let ⟨r, hr, hy⟩ := d q hq hx; ⟨r, (hm r).mp hr, hy⟩, f⟩
    · rintro ⟨a, b, c, d, f⟩
      exact ⟨fun r hr => a r ((hm r).mp hr), fun r hr => b r ((hm r).mp hr), c,
        fun q hq hx => let ⟨r, hr, hy⟩ := d q hq hx; ⟨r, (hm r).mpr hr, hy⟩, f⟩
  simp only [hs, hc] at h2
  have hall : ∀ outs, (externalCompile e exe words t dirs srcs' h).2 = .ok outs ↔ (externalCompile e exe words t dirs srcs h).2 = .ok outs :=
    fun outs => (h2 outs).trans (h1 outs).symm
  cases hx : (externalCompile e exe words t dirs srcs h).2 with
  | ok outs => exact (hall outs).mpr hx
  | error u =>
    cases hy : (externalCompile e exe words t dirs srcs' h).2 with
    | error _ => rfl
    | ok outs =>
      have := (hall outs).mp hy
      rw [hx] at this
      cases this

/-! ### `InstallWheel` with such a compiler -/

namespace Spec

/-- a command that puts byte code next to its source or into `__pycache__` there, as regular files -/
def MakesCode (e : Machine) : Prop :=
  ∀ cmd h h' q c i b, e.run cmd h = (h', true) → h' (e.tmp ++ q) = some (.leaf c i) → join ['/'] q = b ++ ".pyc".toList →
    h' (e.tmp ++ q) = h (e.tmp ++ q) ∨
    i.typeflag = typeReg ∧ ∃ d y x c' i', (q = d ++ [x] ∨ q = d ++ ["__pycache__".toList, x]) ∧
      h (e.tmp ++ (d ++ [y])) = some (.leaf c' i') ∧ ∃ b', y = b' ++ ".py".toList

/-- no directory of the scheme is called `….py` -/
def NoPy (s : Scheme) : Prop := ∀ kind dir, (kind, dir) ∈ schemeDirs s → ¬ ∃ b, dir = b ++ ".py".toList

end Spec

theorem inScheme_elems {s : Scheme} (hs : Spec.CleanScheme s) {es : List Str} (he : ∀ c ∈ es, Plain c) (hne : es ≠ []) :
    Spec.InScheme s (render false es) ↔
      ∃ kind cs bs, cs ≠ [] ∧ (∀ c ∈ cs, Plain c) ∧ (kind, '/' :: join ['/'] cs) ∈ Spec.schemeDirs s ∧ es = cs ++ bs := by
  constructor
  · rintro ⟨kind, dir, hm, h⟩
    obtain ⟨h1, h2, h3⟩ := hs kind dir hm
    obtain ⟨cs, hcne, hp, rfl⟩ := clean_abs h1 h2 h3
    refine ⟨kind, cs, ?_⟩
    have hcs : split '/' (join ['/'] cs) = cs := split_join hcne (fun c h => (hp c h).2.2.2)
    have hsp := split_render (rooted := false) (fun c h => (he c h).2.2.2)
    simp only [Bool.false_eq_true, if_false] at hsp
    rcases h with h | ⟨x, h⟩
    · have e := (List.cons.inj h).2
      rw [← render_join hcne] at e
      exact ⟨[], hcne, hp, hm, by rw [List.append_nil]; exact (render_inj (plain_clean he) (plain_clean hp) e).2⟩
    · rw [List.cons_append] at h
      have e := (List.cons.inj h).2
      rw [if_neg hne, e, split_append, hcs] at hsp
      exact ⟨_, hcne, hp, hm, hsp.symm⟩
  · rintro ⟨kind, cs, bs, hcne, hp, hm, rfl⟩
    refine ⟨kind, _, hm, ?_⟩
    rw [render_join hne]
    by_cases hb : bs = []
    · subst hb; left; rw [List.append_nil]
    · right
      rw [join_append hcne hb]
      exact ⟨_, rfl⟩

theorem collected_mem {tmp : List Str} {h : Host} {qs : List (List Str)} {outs : List Ref} (hc : Spec.Collected tmp h qs outs) {o : Ref} (ho : o ∈ outs) :
    ∃ q ∈ qs, ∃ c i, Spec.IsCode tmp h q ∧ h (tmp ++ q) = some (.leaf (some c) i) ∧ o = .other ⟨join ['/'] q, some i, some c⟩ := by
  induction hc with
  | nil => cases ho
  | code h1 h2 _ ih =>
    rcases List.mem_cons.mp ho with rfl | ho
    · exact ⟨_, by simp, _, _, h1, h2, rfl⟩
    · obtain ⟨q, hq, x⟩ := ih ho
      exact ⟨q, by simp [hq], x⟩
  | other _ _ ih =>
    obtain ⟨q, hq, x⟩ := ih ho
    exact ⟨q, by simp [hq], x⟩

theorem collected_names {tmp : List Str} {h : Host} {qs : List (List Str)} {outs : List Ref} (hc : Spec.Collected tmp h qs outs) :
    (outs.map (·.fullName)).Sublist (qs.map (join ['/'])) := by
  induction hc with
  | nil => exact List.Sublist.refl _
  | code _ _ _ ih => exact ih.cons_cons _
  | other _ _ ih => exact ih.cons _

theorem collected_distinct {tmp : List Str} {h : Host} {qs : List (List Str)} {outs : List Ref} (hq : qs.Nodup ∧ ∀ q ∈ qs, q ≠ [] ∧ ∀ c ∈ q, Plain c)
    (hc : Spec.Collected tmp h qs outs) : (outs.map (·.fullName)).Nodup ∧ ∀ o ∈ outs, Spec.Rel o.fullName := by
  constructor
  · refine List.Nodup.sublist (collected_names hc) ?_
    rw [List.Nodup, List.pairwise_map]
    refine hq.1.imp_of_mem ?_
    intro a b ha hb hab e
    apply hab
    rw [← render_join (hq.2 a ha).1, ← render_join (hq.2 b hb).1] at e
    exact (render_inj (plain_clean (hq.2 a ha).2) (plain_clean (hq.2 b hb).2) e).2
  · intro o ho
    obtain ⟨q, hqm, c, i, _, _, rfl⟩ := collected_mem hc ho
    obtain ⟨h1, h2⟩ := hq.2 q hqm
    show Spec.Rel (join ['/'] q)
    rw [← render_join h1]
    exact ⟨clean_render (plain_clean h2), isRooted_render (fun c hc => ⟨(h2 c hc).1, (h2 c hc).2.2.2⟩)⟩

/-- what the compiler returns, whatever the sources -/
theorem external_ok {e : Machine} {exe : Str} {words : List Str} {t : Int} {dirs : List Str} {srcs : List Ref} {h : Host} {outs : List Ref}
    (hwalk : Spec.Walks e.walk) (ho : (externalCompile e exe words t dirs srcs h).2 = .ok outs) :
    ∃ h2 qs, e.walk h2 = some qs ∧ Spec.Collected e.tmp h2 qs outs := by
  unfold externalCompile at ho
  split at ho
  · cases ho
  · split at ho
    · cases ho
    · split at ho
      · cases ho
      · rename_i h2 _ _ qs hz
        exact ⟨_, qs, hz, (collect_iff (fun q hq => ((hwalk _ _ hz).2 q hq).1)).mp ho⟩

/-- **C94**, fourth part: the compiler is what `InstallWheel` needs (as C90 and C91 assume), for a command that makes byte code next to
the sources. -/
theorem C94_bytes (env : Env) (e : Machine) (exe : Str) (words : List Str) (h : Host) (s : Scheme) (hd : Spec.NewDir e.tmp h)
    (hwalk : Spec.Walks e.walk) (hcode : Spec.MakesCode e) (hs : Spec.CleanScheme s) (hpy : Spec.NoPy s)
    (henv : env.compile = externalCompiler e exe words h) : Spec.ByteCompiler env s ∧ Spec.DistinctCompiler env := by
  have hdown : ∀ srcs : List Ref, Spec.Sources srcs → (∀ f ∈ srcs, Spec.InScheme s f.fullName) →
      ∀ r ∈ srcs, Spec.Rel r.fullName ∧ Spec.Down r.fullName :=
    fun srcs h1 h2 r hr => ⟨(h1.2 r hr).1, inScheme_down hs (h1.2 r hr).1 (h2 r hr)⟩
  -- where byte code comes from
  have horigin : ∀ t dirs srcs outs, Spec.Sources srcs → (∀ r ∈ srcs, Spec.Rel r.fullName ∧ Spec.Down r.fullName) →
      externalCompiler e exe words h t dirs srcs = .ok outs → ∀ o ∈ outs, ∃ q c i, (q ≠ [] ∧ ∀ c ∈ q, Plain c) ∧
        o = .other ⟨join ['/'] q, some i, some c⟩ ∧ (∃ b, join ['/'] q = b ++ ".pyc".toList) ∧ i.typeflag = typeReg ∧
        ∃ r ∈ srcs, ∃ d y x, elems r.fullName = d ++ [y] ∧ (q = d ++ [x] ∨ q = d ++ ["__pycache__".toList, x]) := by
    intro t dirs srcs outs hsrc hn ho o hm
    have hnm : ∀ r ∈ srcs, Named r := fun r hr => named_of (hn r hr).1 (hn r hr).2
    obtain ⟨hcomp, h1, cmd, h2, qs, hsees, _, hrun, hw, hcol⟩ := (C94_compiled_partial e exe words t dirs srcs h hd hwalk hn hsrc.1 outs).mp ho
    have hW := (compatible_iff hnm).mp hcomp
    have hwr := (sees_iff hd hnm hW).mp hsees
    obtain ⟨q, hq, c, i, hic, hleaf, rfl⟩ := collected_mem hcol hm
    obtain ⟨⟨_, _, _⟩, b, hb⟩ := hic
    -- a leaf that the command sees is a source
    have hsource : ∀ q c i, q ≠ [] → h1 (e.tmp ++ q) = some (.leaf c i) → ∃ r ∈ srcs, elems r.fullName = q := by
      intro q c i hq0 hl
      obtain ⟨r, hr, x, hx⟩ := hsees.nothingElse q hq0 (by rw [hl]; simp)
      refine ⟨r, hr, ?_⟩
      by_cases x0 : x = []
      · subst x0
        rw [← split_elems (hnm r hr) (hW.1 r hr).2, ← hx, List.append_nil]
      · have := hsees.parents r hr q x x0 hx.symm
        rw [hl] at this
        cases this
    refine ⟨q, c, i, (hwalk _ _ hw).2 q hq, rfl, ⟨b, hb⟩, ?_⟩
    rcases hcode cmd h1 h2 q _ i b hrun hleaf hb with x | ⟨ht, d, y, x, c', i', hqd, hl, _⟩
    · exfalso
      rw [hleaf] at x
      obtain ⟨r, hr, hrq⟩ := hsource q _ i ((hwalk _ _ hw).2 q hq).1 x.symm
      obtain ⟨b', hb'⟩ := (hsrc.2 r hr).2
      have hq0 := ((hwalk _ _ hw).2 q hq).1
      have hsn := List.dropLast_concat_getLast hq0
      have hlast : Plain (q.getLast hq0) := ((hwalk _ _ hw).2 q hq).2 _ (List.getLast_mem hq0)
      have hfull : r.fullName = render false (q.dropLast ++ [q.getLast hq0]) := by rw [hsn, ← hrq]; exact (hnm r hr).2
      rw [hfull, Squash.pathBase_render hlast] at hb'
      rw [← hsn, ← render_join (by simp)] at hb
      have e1 : ∃ pre, render false (q.dropLast ++ [q.getLast hq0]) = pre ++ q.getLast hq0 := by
        by_cases hdl : q.dropLast = []
        · rw [hdl]; exact ⟨[], by simp [render, join]⟩
        · rw [render_snoc hdl]; exact ⟨render false q.dropLast ++ ['/'], by simp⟩
      obtain ⟨pre, e1⟩ := e1
      rw [e1, hb'] at hb
      have hg := congrArg List.getLast? hb
      have g1 : (pre ++ (b' ++ ".py".toList)).getLast? = some 'y' := by rw [List.getLast?_append, List.getLast?_append]; rfl
      have g2 : (b ++ ".pyc".toList).getLast? = some 'c' := by rw [List.getLast?_append]; rfl
      rw [g1, g2] at hg
      exact absurd hg (by decide)
    · obtain ⟨r, hr, hrq⟩ := hsource (d ++ [y]) c' i' (by simp) hl
      exact ⟨ht, r, hr, d, y, x, hrq, hqd⟩
  have hgen : ∀ t dirs srcs outs, env.compile t dirs srcs = .ok outs → (outs.map (·.fullName)).Nodup ∧ ∀ o ∈ outs, Spec.Rel o.fullName := by
    intro t dirs srcs outs ho
    rw [henv] at ho
    obtain ⟨h2, qs, hw, hcol⟩ := external_ok hwalk ho
    exact collected_distinct (hwalk _ _ hw) hcol
  refine ⟨⟨?_, ?_, ?_, ?_⟩, ?_⟩
  · intro t dirs srcs srcs' hsrc hin hp
    have ho := C94_order_partial e exe words t dirs srcs srcs' h hd hwalk (hdown srcs hsrc hin) hsrc.1 hp
    cases hx : env.compile t dirs srcs with
    | error u =>
      left
      refine ⟨rfl, ?_⟩
      rw [henv] at hx ⊢
      exact ho.trans hx
    | ok outs =>
      right
      refine ⟨outs, outs, rfl, ?_, List.Perm.refl _, hgen _ _ _ _ hx⟩
      rw [henv] at hx ⊢
      exact ho.trans hx
  · intro t dirs srcs outs _ ho
    exact (hgen _ _ _ _ ho).2
  · intro t dirs srcs outs hsrc hin ho o hm
    rw [henv] at ho
    obtain ⟨q, c, i, ⟨hq0, hqp⟩, rfl, _, _, r, hr, d, y, x, hrd, hqd⟩ := horigin t dirs srcs outs hsrc (hdown srcs hsrc hin) ho o hm
    have hnm := named_of (hdown srcs hsrc hin r hr).1 (hdown srcs hsrc hin r hr).2
    have hir := hin r hr
    rw [hnm.2, hrd] at hir
    have hdy : ∀ c ∈ d ++ [y], Plain c := by rw [← hrd]; exact hnm.1
    obtain ⟨kind, cs, bs, hcne, hcp, hmem, he⟩ := (inScheme_elems hs hdy (by simp)).mp hir
    show Spec.InScheme s (join ['/'] q)
    rw [← render_join hq0, inScheme_elems hs hqp hq0]
    have hbs : bs ≠ [] := by
      rintro rfl
      rw [List.append_nil] at he
      obtain ⟨b', hb'⟩ := (hsrc.2 r hr).2
      rw [hnm.2, hrd, Squash.pathBase_render (hdy y (by simp))] at hb'
      apply hpy kind _ hmem
      rw [← he, ← render_join (by simp)]
      by_cases hdl : d = []
      · rw [hdl]; exact ⟨'/' :: b', by simp [render, join, hb']⟩
      · rw [render_snoc hdl]; exact ⟨'/' :: (render false d ++ '/' :: b'), by simp [hb']⟩
    obtain ⟨bs', z, rfl⟩ : ∃ bs' z, bs = bs' ++ [z] := ⟨_, _, (List.dropLast_concat_getLast hbs).symm⟩
    rw [← List.append_assoc] at he
    obtain ⟨rfl, _⟩ := List.append_inj' he rfl
    rcases hqd with rfl | rfl
    · exact ⟨kind, cs, bs' ++ [x], hcne, hcp, hmem, by simp⟩
    · exact ⟨kind, cs, bs' ++ ["__pycache__".toList, x], hcne, hcp, hmem, by simp⟩
  · intro t dirs srcs outs hsrc hin ho o hm
    rw [henv] at ho
    obtain ⟨q, c, i, _, rfl, ⟨b, hb⟩, ht, _⟩ := horigin t dirs srcs outs hsrc (hdown srcs hsrc hin) ho o hm
    exact ⟨_, i, b, rfl, rfl, ht, hb⟩
  · intro t dirs srcs outs _ ho
    exact (hgen _ _ _ _ ho).1

/-! ### A machine -/

def toyFile (name : String) (content : Bytes) : Ref := (.zip (sampleFile name content).hdr (some content) none)

def toyCode : Node := .leaf (some [7]) ⟨"a.pyc".toList, typeReg, [], 1, 0o644, 0, 0, [], [], 9, 0, 0, [], []⟩

/-- a command that knows how to compile `l/pure/a.py` -/
def toyRun (tmp : List Str) (_ : Cmd) (h : Host) : Host × Bool :=
  match h (tmp ++ ["l".toList, "pure".toList, "a.py".toList]) with
  | some (.leaf _ _) => ((h.set (tmp ++ ["l".toList, "pure".toList, "__pycache__".toList]) .dir).set
      (tmp ++ ["l".toList, "pure".toList, "__pycache__".toList, "a.pyc".toList]) toyCode, true)
  | _ => (h, true)

def toyMachine : Machine :=
  { tmp := ["tmp".toList, "x1".toList], info := fun n t => ⟨[], typeReg, [], n, 0o644, 0, 0, [], [], t, 0, 0, [], []⟩
    environ := ["HOME=/".toList], pythonPath := [], run := toyRun ["tmp".toList, "x1".toList]
    walk := fun h => some ([["l".toList], ["l".toList, "pure".toList], ["l".toList, "pure".toList, "__pycache__".toList],
      ["l".toList, "pure".toList, "__pycache__".toList, "a.pyc".toList], ["l".toList, "pure".toList, "a.py".toList],
      ["l".toList, "pure".toList, "b.py".toList]].filter (fun q => h (["tmp".toList, "x1".toList] ++ q) ≠ none)) }

def toyHost : Host := fun p => if p = [] ∨ p = ["tmp".toList] then some .dir else none

theorem toy_new : Spec.NewDir toyMachine.tmp toyHost := by
  refine ⟨by unfold Plain; decide +kernel, by decide, ?_, ?_⟩
  · intro p hp hne
    obtain ⟨x, hx⟩ := hp
    unfold toyHost
    match p, x, hx with
    | [], _, _ => rfl
    | [a], _, hx =>
      have := (List.cons.inj hx).1
      rw [this]; rfl
    | [a, b], [], hx => exact absurd (by rw [← hx, List.append_nil]) hne
    | [a, b], _ :: _, hx => exact absurd (congrArg List.length hx) (by simp [toyMachine])
    | _ :: _ :: _ :: _, _, hx => exact absurd (congrArg List.length hx) (by simp [toyMachine])
  · rintro p ⟨x, rfl⟩
    unfold toyHost
    rw [if_neg]
    simp [toyMachine]

theorem toy_stays : Spec.StaysIn toyMachine.tmp toyMachine.run := by
  intro c h p hp
  have hne : ∀ q, p ≠ toyMachine.tmp ++ q := fun q e => hp ⟨q, e.symm⟩
  show (toyRun _ c h).1 p = h p
  unfold toyRun
  split
  · exact (Host.set_other _ _ (hne ["l".toList, "pure".toList, "__pycache__".toList, "a.pyc".toList])).trans
      (Host.set_other _ _ (hne ["l".toList, "pure".toList, "__pycache__".toList]))
  · rfl

theorem toy_walks : Spec.Walks toyMachine.walk := by
  intro h qs hq
  injection hq with hq
  subst hq
  refine ⟨List.Nodup.sublist List.filter_sublist (by decide +kernel), ?_⟩
  intro q hq
  have h1 : ∀ q ∈ [["l".toList], ["l".toList, "pure".toList], ["l".toList, "pure".toList, "__pycache__".toList],
      ["l".toList, "pure".toList, "__pycache__".toList, "a.pyc".toList], ["l".toList, "pure".toList, "a.py".toList],
      ["l".toList, "pure".toList, "b.py".toList]], q ≠ [] ∧ ∀ c ∈ q, Plain c := by unfold Plain; decide +kernel
  exact h1 q (List.mem_filter.mp hq).1

theorem toy_makes : Spec.MakesCode toyMachine := by
  intro cmd h h' q c i b hrun hl _
  have hrun : toyRun toyMachine.tmp cmd h = (h', true) := hrun
  unfold toyRun at hrun
  split at hrun
  · rename_i c' i' hsrc
    injection hrun with hrun _
    by_cases h1 : q = ["l".toList, "pure".toList, "__pycache__".toList, "a.pyc".toList]
    · right
      subst h1
      rw [← hrun, Host.set_same] at hl
      injection hl with hl
      unfold toyCode at hl
      injection hl with _ hi
      exact ⟨by rw [← hi], ["l".toList, "pure".toList], "a.py".toList, "a.pyc".toList, c', i', Or.inr rfl, hsrc, "a".toList, rfl⟩
    · left
      rw [← hrun, Host.set_other _ _ (fun e => h1 (List.append_cancel_left e))]
      by_cases h2 : q = ["l".toList, "pure".toList, "__pycache__".toList]
      · subst h2
        rw [← hrun, Host.set_other _ _ (fun e => h1 (List.append_cancel_left e)), Host.set_same] at hl
        cases hl
      · rw [Host.set_other _ _ (fun e => h2 (List.append_cancel_left e))]
  · injection hrun with hrun _
    left; rw [hrun]

theorem toy_nopy : Spec.NoPy toyScheme := by
  rintro kind dir h ⟨b, hb⟩
  have h1 : ∀ e ∈ Spec.schemeDirs toyScheme, e.2.getLast? ≠ some 'y' := by decide +kernel
  apply h1 _ h
  show dir.getLast? = _
  rw [hb, List.getLast?_append]; rfl

/-- two sources meet the conditions of C94, and are compiled -/
example : Spec.NewDir toyMachine.tmp toyHost ∧ Spec.StaysIn toyMachine.tmp toyMachine.run ∧ Spec.Walks toyMachine.walk ∧
    Spec.MakesCode toyMachine ∧ Spec.CleanScheme toyScheme ∧ Spec.NoPy toyScheme ∧
    (∀ r ∈ [toyFile "l/pure/a.py" [1], toyFile "l/pure/b.py" [2]], Spec.Rel r.fullName ∧ Spec.Down r.fullName) ∧
    ([toyFile "l/pure/a.py" [1], toyFile "l/pure/b.py" [2]].map (·.fullName)).Nodup ∧
    ∃ o, (externalCompile toyMachine "/bin/python".toList ["-m".toList, "compileall".toList] 5 ["l/pure".toList]
      [toyFile "l/pure/a.py" [1], toyFile "l/pure/b.py" [2]] toyHost).2 = .ok [o] ∧ o.fullName = "l/pure/__pycache__/a.pyc".toList := by
  refine ⟨toy_new, toy_stays, toy_walks, toy_makes, toy_clean, toy_nopy, ?_, by decide +kernel, ?_⟩
  · intro r hr
    have h1 : ∀ r ∈ [toyFile "l/pure/a.py" [1], toyFile "l/pure/b.py" [2]],
        clean r.fullName = r.fullName ∧ isRooted r.fullName = false ∧ "..".toList ∉ cleanElems false (split '/' r.fullName) := by decide +kernel
    exact ⟨⟨(h1 r hr).1, (h1 r hr).2.1⟩, (down_iff _).mpr (h1 r hr).2.2⟩
  · exact ⟨.other ⟨"l/pure/__pycache__/a.pyc".toList, _, _⟩, rfl, rfl⟩

/-- **C94** fails for a source whose name leads upwards, as an archive can have: it is written outside of the temporary directory,
and is left there. -/
theorem C94_violated : ∃ e exe words t dirs srcs h outs p, Spec.NewDir e.tmp h ∧ Spec.StaysIn e.tmp e.run ∧ Spec.Walks e.walk ∧
    Spec.Sources srcs ∧ (externalCompile e exe words t dirs srcs h).2 = .ok outs ∧ h p = none ∧
    ∃ c i, (externalCompile e exe words t dirs srcs h).1 p = some (.leaf (some c) i) := by
  refine ⟨toyMachine, [], [], 5, [], [toyFile "../a.py" [1]], toyHost, [], ["tmp".toList, "a.py".toList], toy_new, toy_stays, toy_walks,
    ⟨by decide +kernel, ?_⟩, by rfl, by decide +kernel, [1], _, by rfl⟩
  intro f hf
  rw [List.mem_singleton.mp hf]
  exact ⟨by unfold Spec.Rel; decide +kernel, "a".toList, by decide +kernel⟩

/-- `installToVFS` hands a directory whose name ends in `.py` to the compiler too (as C92 shows), and as a file: then the sources in
it cannot be written, and no machine compiles them. -/
theorem C94_violated_directory (e : Machine) (exe : Str) (words : List Str) (t : Int) (dirs : List Str) (h : Host) (hd : Spec.NewDir e.tmp h)
    (hwalk : Spec.Walks e.walk) (hdr hdr' : ZHdr) (c c' : Option Bytes) (n : hdr.name = "lib/x.py/".toList) (n' : hdr'.name = "lib/x.py/a.py".toList) :
    (externalCompile e exe words t dirs [.zip hdr c none, .zip hdr' c' none] h).2 = .error () := by
  have e1 : (Ref.zip hdr c none).fullName = "lib/x.py".toList := by show clean hdr.name = _; rw [n]; decide +kernel
  have e2 : (Ref.zip hdr' c' none).fullName = "lib/x.py/a.py".toList := by show clean hdr'.name = _; rw [n']; decide +kernel
  cases hx : (externalCompile e exe words t dirs [.zip hdr c none, .zip hdr' c' none] h).2 with
  | error u => rfl
  | ok outs =>
    exfalso
    have hn : ∀ r ∈ [Ref.zip hdr c none, .zip hdr' c' none], Spec.Rel r.fullName ∧ Spec.Down r.fullName := by
      intro r hr
      simp only [List.mem_cons, List.not_mem_nil, or_false] at hr
      rcases hr with rfl | rfl
      · rw [e1]; exact ⟨by unfold Spec.Rel; decide +kernel, (down_iff _).mpr (by decide +kernel)⟩
      · rw [e2]; exact ⟨by unfold Spec.Rel; decide +kernel, (down_iff _).mpr (by decide +kernel)⟩
    have hnd : ([Ref.zip hdr c none, .zip hdr' c' none].map (·.fullName)).Nodup := by
      show [(Ref.zip hdr c none).fullName, (Ref.zip hdr' c' none).fullName].Nodup
      rw [e1, e2]; decide +kernel
    obtain ⟨⟨_, hc⟩, _⟩ := (C94_compiled_partial e exe words t dirs _ h hd hwalk hn hnd outs).mp hx
    refine hc (.zip hdr c none) (by simp) (.zip hdr' c' none) (by simp) ?_
    rw [e1, e2]
    exact ⟨"a.py".toList, by decide +kernel⟩

end Bdist
