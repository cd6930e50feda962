import Verif.Python.ImageFs
import Verif.Python.PropsInspect
import Verif.Squash.PropsEnds
/-! C100: `Stat`, `LookPath` and `Shebangs` see the files of an image that a container would. -/
namespace Python
open Go Squash Squash.Spec

namespace Spec
/-- Following `cs` from the root of the image, as the operating system would, one comes to a file that is not a directory (a tar header
may also say in its mode that it is one) and that someone may execute. -/
def CanRun (V : Squash.Path → Option Squash.Node) (cs : List Str) : Prop :=
  ∃ q nd h, Leads V [] cs q ∧ V q = some nd ∧ nd.header = some h ∧ h.typeflag ≠ '5' ∧ h.mode / 4096 ≠ 4 ∧
    (h.mode % 2 = 1 ∨ h.mode / 8 % 2 = 1 ∨ h.mode / 64 % 2 = 1)

/-- the elements of the path of directory `d`, seen from the working directory `w`, which is below the root -/
def way (w d : Str) : List Str := if isRooted d then comps d else comps w ++ comps d

/-- an absolute path with these elements -/
def absolute (cs : List Str) : Str := '/' :: join ['/'] cs
end Spec

/-! ### names -/

theorem mode_bit (m : Int) (k : Nat) (hk : k < 9) : (BitVec.ofInt 32 m &&& 0o777#32).getLsbD k = decide (m / 2 ^ k % 2 = 1) := by
  have h7 : (0o777#32).getLsbD k = true := by
    have : ∀ k, k < 9 → (0o777#32).getLsbD k = true := by decide
    exact this k hk
  rw [BitVec.getLsbD_and, h7, Bool.and_true, ← BitVec.testBit_toNat, Nat.testBit_eq_decide_div_mod_eq, BitVec.toNat_ofInt]
  have hk' : k = 0 ∨ k = 1 ∨ k = 2 ∨ k = 3 ∨ k = 4 ∨ k = 5 ∨ k = 6 ∨ k = 7 ∨ k = 8 := by omega
  congr 1
  apply propext
  rcases hk' with rfl | rfl | rfl | rfl | rfl | rfl | rfl | rfl | rfl <;> simp <;> omega

theorem canRun_bits (h : Header) : (isDirInfo h || decide (permOf h &&& 0o111#32 = 0#32)) = false ↔
    h.typeflag ≠ '5' ∧ h.mode / 4096 ≠ 4 ∧ (h.mode % 2 = 1 ∨ h.mode / 8 % 2 = 1 ∨ h.mode / 64 % 2 = 1) := by
  have h0 := mode_bit h.mode 0 (by decide)
  have h3 := mode_bit h.mode 3 (by decide)
  have h6 := mode_bit h.mode 6 (by decide)
  simp only [Bool.or_eq_false_iff, decide_eq_false_iff_not, isDirInfo, exec_bits, permOf, h0, h3, h6, decide_eq_true_eq, typeDir, Classical.not_not, ne_eq]
  constructor
  · rintro ⟨⟨a, b⟩, c⟩
    refine ⟨of_decide_eq_false a, by omega, ?_⟩
    simpa using c
  · rintro ⟨a, b, c⟩
    refine ⟨⟨decide_eq_false a, by omega⟩, ?_⟩
    simpa using c

theorem comps_join {cs : List Str} (h : ∀ c ∈ cs, Plain c) (hne : cs ≠ []) : split '/' (join ['/'] cs) = cs ∧ comps (join ['/'] cs) = cs := by
  have h1 : split '/' (join ['/'] cs) = cs := by
    have := split_render (rooted := false) (cs := cs) (fun c hc => (h c hc).2.2.2)
    simpa [render, hne] using this
  refine ⟨h1, ?_⟩
  unfold comps
  rw [h1, List.filter_eq_self]
  intro c hc
  simpa using ⟨(h c hc).1, (h c hc).2.1⟩

theorem valid_join {cs : List Str} (h : ∀ c ∈ cs, Plain c) (hne : cs ≠ []) : validPath (join ['/'] cs) = true := by
  unfold validPath
  rw [Bool.or_eq_true]
  right
  rw [(comps_join h hne).1, List.all_eq_true]
  intro c hc
  simpa using ⟨⟨(h c hc).1, (h c hc).2.1⟩, (h c hc).2.2.1⟩

theorem plain_comps {d : Str} (h : "..".toList ∉ comps d) : ∀ c ∈ comps d, Plain c := by
  intro c hc
  obtain ⟨g1, g2, g3⟩ := mem_comps hc
  exact ⟨g1, g2, fun e => h (by rw [show "..".toList = c from e.symm]; exact hc), g3⟩

theorem elems_comps {r : Bool} {d : Str} (h : "..".toList ∉ comps d) : cleanElems r (split '/' d) = comps d := by
  rw [cleanElems_ups (j := 0) (ns := comps d) ⟨by simp, plain_comps h⟩]
  simp

theorem comps_slash (w : Str) : comps ('/' :: w) = comps w := by
  unfold comps
  rw [show split '/' ('/' :: w) = [] :: split '/' w from split_cons (w := []) (by simp)]
  simp

theorem way_plain {w d : Str} (hw : "..".toList ∉ comps w) (hd : "..".toList ∉ comps d) : ∀ c ∈ Spec.way w d, Plain c := by
  unfold Spec.way
  split
  · exact plain_comps hd
  · intro c hc
    rcases List.mem_append.mp hc with hc | hc
    · exact plain_comps hw c hc
    · exact plain_comps hd c hc

/-- where the name is looked for -/
theorem full_path {wd w d name : Str} (hwd : isRooted wd = true) (hcw : comps wd = comps w) (hw : "..".toList ∉ comps w)
    (hd : "..".toList ∉ comps d) (hn : Plain name) :
    (if !isRooted (pathJoin [d, name]) then pathJoin [wd, pathJoin [d, name]] else pathJoin [d, name]) =
      Spec.absolute (Spec.way w d ++ [name]) := by
  have hwd0 : wd ≠ [] := by rintro rfl; cases hwd
  have hwe : cleanElems true (split '/' wd) = comps w := by rw [← hcw]; exact elems_comps (by rw [hcw]; exact hw)
  by_cases h0 : d = []
  · subst h0
    have e1 : pathJoin [[], name] = name := by
      unfold pathJoin
      simp only [ne_eq, decide_not, List.filter_cons, decide_true, Bool.not_true, Bool.false_eq_true, if_false, hn.1, decide_false,
        Bool.not_false, if_true, List.filter_nil, join]
      have := clean_render (rooted := false) (cs := [name]) ⟨0, [name], by simp, by simpa using hn, fun _ => rfl⟩
      simpa [render, join] using this
    have e2 : isRooted name = false := by
      have := isRooted_render (rooted := false) (cs := [name]) (by simpa using ⟨hn.1, hn.2.2.2⟩)
      simpa [render, join] using this
    rw [e1, e2, Bool.not_false, if_pos rfl, pathJoin_plain hwd0 hn, hwd, hwe]
    unfold Spec.absolute Spec.way render
    rw [if_pos rfl, if_neg (by decide), show comps [] = [] by decide, List.append_nil]
  · rw [pathJoin_plain h0 hn, elems_comps hd]
    have hpl : ∀ c ∈ comps d ++ [name], Plain c := by
      intro c hc
      rcases List.mem_append.mp hc with hc | hc
      · exact plain_comps hd c hc
      · rw [List.mem_singleton.mp hc]; exact hn
    rw [isRooted_render (fun c hc => ⟨(hpl c hc).1, (hpl c hc).2.2.2⟩)]
    by_cases hr : isRooted d = true
    · rw [hr, Bool.not_true, if_neg (by decide)]
      unfold Spec.absolute Spec.way render
      rw [if_pos rfl, if_pos hr]
    · have hr : isRooted d = false := by simpa using hr
      rw [hr, Bool.not_false, if_pos rfl]
      have hne : render false (comps d ++ [name]) ≠ [] := render_ne_nil' (fun c hc => (hpl c hc).1)
      unfold pathJoin
      rw [show [wd, render false (comps d ++ [name])].filter (· ≠ []) = [wd, render false (comps d ++ [name])] by simp [hwd0, hne]]
      show clean (wd ++ ['/'] ++ render false (comps d ++ [name])) = _
      unfold clean
      rw [List.append_assoc, List.singleton_append, isRooted_append hwd0, hwd, split_append,
        split_render (fun c hc => (hpl c hc).2.2.2), if_neg (by decide), if_neg (by simp), cleanElems_append_plain hpl, hwe]
      unfold Spec.absolute Spec.way render
      rw [if_pos rfl, hr, if_neg (by decide), List.append_assoc]

/-! ### `Stat` -/

/-- an open file has a header under the name it was opened by if it has one at all -/
theorem open_header {n : Nat} {S : FS} {name : Str} {p l : Squash.Path} (hi : Inv false S) (h : openFile n S name = some (.ok (p, l))) :
    p = l ∨ ∃ nd hd, S.get? l = some nd ∧ nd.header = some hd := by
  unfold openFile at h
  split at h
  · cases h
  obtain ⟨⟨x1, x2⟩, e1, h1⟩ := bind_ok.mp h
  clear h
  obtain ⟨⟨y1, y2⟩, e2, h2⟩ := bind_ok.mp h1
  clear h1
  simp only [Option.some.injEq, Except.ok.injEq, Prod.mk.injEq] at h2
  obtain ⟨rfl, rfl⟩ := h2
  have hS : x1 = S := (fsGet_pres (b := false) (S₀ := S) ⟨hi, hi.root, fun _ h => h, fun _ => rfl⟩ (fun h => (nomatch h)) e1).same rfl
  cases n with
  | zero => cases e2
  | succ n =>
    have e2 : Gc false (n + 1) x1 x2 ".".toList true = some (.ok (y1, y2)) := e2
    rw [get_dot, if_pos rfl] at e2
    cases n with
    | zero => cases e2
    | succ n =>
      rw [resolve] at e2
      cases hl : x1.link x2 with
      | none =>
        rw [hl] at e2
        simp only [Option.some.injEq, Except.ok.injEq, Prod.mk.injEq] at e2
        exact .inl e2.2.symm
      | some t =>
        right
        unfold FS.link at hl
        rw [hS] at hl
        cases hg : S.get? x2 with
        | none => rw [hg] at hl; cases hl
        | some nd =>
          rw [hg] at hl
          obtain ⟨hd, h1, _⟩ := linkTo_iff.mpr hl
          exact ⟨nd, hd, rfl, h1⟩

/-- `Stat` of an open file does not panic, and gives the header of the file led to -/
theorem statHandle_spec {n : Nat} {S : FS} {name : Str} {p l : Squash.Path} (hi : Inv false S) (h : openFile n S name = some (.ok (p, l))) :
    (∃ nd h0 nm, S.get? p = some nd ∧ nd.header = some h0 ∧ statHandle S p l = some (.ok { h0 with name := nm })) ∨
    ((∀ nd, S.get? p = some nd → nd.header = none) ∧ statHandle S p l = some (.error ())) := by
  unfold statHandle
  cases hp : S.get? p with
  | none => exact .inr ⟨by simp, rfl⟩
  | some nd =>
    obtain ⟨hd, body⟩ := nd
    cases hd with
    | none => exact .inr ⟨fun nd h => by cases h; rfl, rfl⟩
    | some h0 =>
      left
      rcases open_header hi h with rfl | ⟨nd, hd, h1, h2⟩
      · rw [hp]
        exact ⟨_, h0, h0.name, rfl, rfl, rfl⟩
      · obtain ⟨hd', body'⟩ := nd
        simp only at h2
        subst h2
        rw [h1]
        exact ⟨_, h0, hd.name, rfl, rfl, rfl⟩

section
variable {m : Nat} {layers : List (List Entry)} {oc : Bool} {S : FS}

/-- `fs.Stat` of a path with plain elements, whenever it returns -/
theorem fsStat_spec (hload : loadLayers m layers oc = some (.ok S)) (hs : Straight S.get?) {cs : List Str} (hp : ∀ c ∈ cs, Plain c)
    (hne : cs ≠ []) {n : Nat} {r : Except Unit Header} (h : fsStat n S (join ['/'] cs) = some r) :
    (∀ hd, r = .ok hd → ∃ q nd h0 nm, Leads S.get? [] cs q ∧ S.get? q = some nd ∧ nd.header = some h0 ∧ hd = { h0 with name := nm }) ∧
    (∀ q nd h0, Leads S.get? [] cs q → S.get? q = some nd → nd.header = some h0 → ∃ nm, r = .ok { h0 with name := nm }) := by
  have hi : Inv false S := load_inv (fun h => (nomatch h)) hload
  have hc := (comps_join hp hne).2
  have hex : ∀ q, Leads S.get? [] cs q → ∃ k l, openFile k S (join ['/'] cs) = some (.ok (q, l)) := by
    intro q hq
    obtain ⟨cs', c, rfl⟩ : ∃ cs' c, cs = cs' ++ [c] := ⟨_, _, (List.dropLast_concat_getLast hne).symm⟩
    obtain ⟨d, hd⟩ := leads_init hq cs' c rfl (hp c (by simp)).2.2.1
    obtain ⟨k, hk⟩ := (C98_open_partial m layers oc S hload hs (join ['/'] (cs' ++ [c])) q (d ++ [c])).mpr
      ⟨valid_join hp hne, by rw [hc]; exact hq, d, by rw [hc]; simpa using hd, by rw [hc]; simp⟩
    exact ⟨k, _, hk⟩
  unfold fsStat at h
  cases ho : openFile n S (join ['/'] cs) with
  | none => rw [ho] at h; cases h
  | some ro =>
    have hdet : ∀ {k : Nat} {r' : Except Unit (Squash.Path × Squash.Path)}, openFile k S (join ['/'] cs) = some r' → r' = ro := by
      intro k r' hk
      have a := open_mono (Nat.le_max_left n k) ho
      have b := open_mono (Nat.le_max_right n k) hk
      exact (Option.some.inj (a.symm.trans b)).symm
    cases ro with
    | error e =>
      rw [ho] at h
      have h : some (.error e) = some r := h
      cases h
      refine ⟨fun _ h => (nomatch h), fun q nd h0 hq _ _ => ?_⟩
      obtain ⟨k, l, hk⟩ := hex q hq
      exact (nomatch hdet hk)
    | ok x =>
      obtain ⟨p, l⟩ := x
      have h98 := (C98_open_partial m layers oc S hload hs (join ['/'] cs) p l).mp ⟨n, ho⟩
      rw [hc] at h98
      rw [ho, bind_some_ok] at h
      have huniq : ∀ q, Leads S.get? [] cs q → q = p := by
        intro q hq
        obtain ⟨k, l', hk⟩ := hex q hq
        have := hdet hk
        cases this; rfl
      rcases statHandle_spec hi ho with ⟨nd, h0, nm, h1, h2, h3⟩ | ⟨h1, h2⟩
      · rw [h3] at h
        cases h
        refine ⟨fun hd e => ⟨p, nd, h0, nm, h98.2.1, h1, h2, by cases e; rfl⟩, fun q nd' h0' hq hn hh => ?_⟩
        rw [huniq q hq, h1] at hn
        cases hn
        rw [h2] at hh
        cases hh
        exact ⟨nm, rfl⟩
      · rw [h2] at h
        cases h
        refine ⟨fun _ h => (nomatch h), fun q nd' h0' hq hn hh => ?_⟩
        rw [huniq q hq] at hn
        rw [h1 nd' hn] at hh
        cases hh
end

/-- the image has the working directory `w` and the environment `env` (both empty if there is no configuration), and its layers hold
the files `S` -/
structure Has (n : Nat) (img : OciImage) (w : Str) (env : List Str) (S : FS) : Prop where
  config : img.config = .ok (some (w, env)) ∨ (img.config = .ok none ∧ w = [] ∧ env = [])
  layers : ∃ layers, img.layers = .ok layers ∧ loadLayers n layers true = some (.ok S)

/-- the small image of the model of C77, for its working directory and `PATH` -/
abbrev asImage (w : Str) (env : List Str) : Image := ⟨w, env, fun _ => none⟩

theorem init_of {n : Nat} {img : OciImage} {w : Str} {env : List Str} {S : FS} (h : Has n img w env S) :
    imageInit n img = some (.ok ((asImage w env).wd, (asImage w env).path, S)) := by
  obtain ⟨layers, hl, hload⟩ := h.layers
  unfold imageInit
  rcases h.config with hc | ⟨hc, rfl, rfl⟩
  · rw [hc, hl]
    simp only
    rw [hload, bind_some_ok]
    unfold Image.wd Image.path
    simp only
    by_cases hw : w = []
    · rw [if_pos hw, if_neg (fun h => h hw)]
      rfl
    · rw [if_neg hw, if_pos hw]
      cases hasPrefix w ['/'] <;> rfl
  · rw [hc, hl]
    simp only
    rw [hload, bind_some_ok]
    rfl

theorem exec_spec {n : Nat} {img : OciImage} {w : Str} {env : List Str} {S : FS} (h : Has n img w env S) (hs : Straight S.get?)
    {cs : List Str} (hp : ∀ c ∈ cs, Plain c) (hne : cs ≠ []) {r : Except Unit Unit} (hr : checkExecutable n img (Spec.absolute cs) = some r) :
    (r = .ok () ∧ Spec.CanRun S.get? cs) ∨ (r = .error () ∧ ¬ Spec.CanRun S.get? cs) := by
  obtain ⟨layers, hl, hload⟩ := h.layers
  unfold checkExecutable OciImage.stat at hr
  rw [show isRooted (Spec.absolute cs) = true from rfl, Bool.not_true, if_neg (by decide), init_of h, bind_some_ok,
    show (Spec.absolute cs).drop 1 = join ['/'] cs from rfl] at hr
  simp only at hr
  cases hst : fsStat n S (join ['/'] cs) with
  | none => rw [hst] at hr; cases hr
  | some rs =>
    obtain ⟨h1, h2⟩ := fsStat_spec hload hs hp hne hst
    rw [hst] at hr
    cases rs with
    | error e =>
      have hr : some (.error e) = some r := hr
      cases hr
      right
      refine ⟨rfl, ?_⟩
      rintro ⟨q, nd, h0, hq, hn, hh, _⟩
      obtain ⟨nm, e⟩ := h2 q nd h0 hq hn hh
      cases e
    | ok hd =>
      rw [bind_some_ok] at hr
      obtain ⟨q, nd, h0, nm, hq, hn, hh, rfl⟩ := h1 hd rfl
      have hb := canRun_bits { h0 with name := nm }
      cases hc : (isDirInfo { h0 with name := nm } || decide (permOf { h0 with name := nm } &&& 0o111#32 = 0#32)) with
      | true =>
        rw [if_pos hc] at hr
        cases hr
        right
        refine ⟨rfl, ?_⟩
        rintro ⟨q', nd', h0', hq', hn', hh', hx⟩
        obtain ⟨nm', e⟩ := h2 q' nd' h0' hq' hn' hh'
        simp only [Except.ok.injEq] at e
        have ht : h0.typeflag = h0'.typeflag := by
          have := congrArg Header.typeflag e; simpa using this
        have hm : h0.mode = h0'.mode := by
          have := congrArg Header.mode e; simpa using this
        rw [← ht, ← hm] at hx
        rw [hb.mpr hx] at hc
        cases hc
      | false =>
        rw [if_neg (by rw [hc]; decide)] at hr
        cases hr
        exact .inl ⟨rfl, q, nd, h0, hq, hn, hh, hb.mp hc⟩

/-- **C100** `Stat` of an absolute path, whenever it returns, gives the header (apart from its name) of the file that the operating system
would find there, and an error if there is none or none of the layers has an entry for it. -/
theorem C100_stat_partial {n : Nat} {img : OciImage} {w : Str} {env : List Str} {S : FS} (h : Has n img w env S) (hs : Straight S.get?)
    {cs : List Str} (hp : ∀ c ∈ cs, Plain c) (hne : cs ≠ []) {r : Except Unit Header} (hr : img.stat n (Spec.absolute cs) = some r) :
    (∀ hd, r = .ok hd → ∃ q nd h0 nm, Leads S.get? [] cs q ∧ S.get? q = some nd ∧ nd.header = some h0 ∧ hd = { h0 with name := nm }) ∧
    (∀ q nd h0, Leads S.get? [] cs q → S.get? q = some nd → nd.header = some h0 → ∃ nm, r = .ok { h0 with name := nm }) := by
  obtain ⟨layers, hl, hload⟩ := h.layers
  unfold OciImage.stat at hr
  rw [show isRooted (Spec.absolute cs) = true from rfl, Bool.not_true, if_neg (by decide), init_of h, bind_some_ok] at hr
  exact fsStat_spec hload hs hp hne hr

theorem wd_comps (w : Str) (env : List Str) : isRooted (asImage w env).wd = true ∧ comps (asImage w env).wd = comps w := by
  rw [wd_spec]
  unfold Spec.workDir
  by_cases h : isRooted w = true
  · rw [if_pos h]
    exact ⟨h, rfl⟩
  · rw [if_neg h]
    exact ⟨rfl, comps_slash w⟩

theorem lookIn_spec {n : Nat} {img : OciImage} {w : Str} {env : List Str} {S : FS} (h : Has n img w env S) (hs : Straight S.get?)
    (hw : "..".toList ∉ comps w) {name : Str} (hn : Plain name) : ∀ (dirs : List Str), (∀ d ∈ dirs, "..".toList ∉ comps d) →
    ∀ r, lookIn n img (asImage w env).wd name dirs = some r →
    (∀ p, r = .ok p ↔ ∃ before d after, dirs = before ++ d :: after ∧ p = Spec.absolute (Spec.way w d ++ [name]) ∧
        Spec.CanRun S.get? (Spec.way w d ++ [name]) ∧ ∀ d' ∈ before, ¬ Spec.CanRun S.get? (Spec.way w d' ++ [name])) ∧
    (r = .error () ↔ ∀ d ∈ dirs, ¬ Spec.CanRun S.get? (Spec.way w d ++ [name])) := by
  intro dirs
  induction dirs with
  | nil =>
    intro _ r hr
    rw [lookIn] at hr
    cases hr
    refine ⟨fun p => ⟨fun h => (nomatch h), ?_⟩, by simp⟩
    rintro ⟨b, d, a, e, _⟩
    exact absurd e.symm (by simp)
  | cons d dirs ih =>
    intro hd r hr
    rw [lookIn] at hr
    rw [full_path (wd_comps w env).1 (wd_comps w env).2 hw (hd d (by simp)) hn] at hr
    cases hce : checkExecutable n img (Spec.absolute (Spec.way w d ++ [name])) with
    | none => rw [hce] at hr; cases hr
    | some x =>
      have hpl : ∀ c ∈ Spec.way w d ++ [name], Plain c := by
        intro c hc
        rcases List.mem_append.mp hc with hc | hc
        · exact way_plain hw (hd d (by simp)) c hc
        · rw [List.mem_singleton.mp hc]; exact hn
      rcases exec_spec h hs hpl (by simp) hce with ⟨rfl, hcan⟩ | ⟨rfl, hcan⟩
      · rw [hce] at hr
        cases hr
        refine ⟨fun p => ⟨?_, ?_⟩, ⟨fun h => (nomatch h), fun h => absurd hcan (h d (by simp))⟩⟩
        · intro e
          cases e
          exact ⟨[], d, dirs, rfl, rfl, hcan, by simp⟩
        · rintro ⟨b, d', a, e, rfl, h1, h2⟩
          cases b with
          | nil => rw [(List.cons.inj e).1]
          | cons x b => exact absurd hcan (h2 d (by rw [(List.cons.inj e).1]; simp))
      · rw [hce] at hr
        obtain ⟨i1, i2⟩ := ih (fun d' hd' => hd d' (by simp [hd'])) r hr
        refine ⟨fun p => ⟨?_, ?_⟩, ?_⟩
        · intro e
          obtain ⟨b, d', a, rfl, h1, h2, h3⟩ := (i1 p).mp e
          refine ⟨d :: b, d', a, rfl, h1, h2, ?_⟩
          intro x hx
          rcases List.mem_cons.mp hx with rfl | hx
          · exact hcan
          · exact h3 x hx
        · rintro ⟨b, d', a, e, rfl, h1, h2⟩
          cases b with
          | nil =>
            rw [(List.cons.inj e).1] at hcan
            exact absurd h1 hcan
          | cons x b =>
            exact (i1 _).mpr ⟨b, d', a, (List.cons.inj e).2, rfl, h1, fun y hy => h2 y (by simp [hy])⟩
        · rw [i2]
          simp [hcan]

/-- **C100** `LookPath` of a plain name, whenever it returns: the name in the first directory of `PATH` in which the operating system would
find a file that can be run, relative directories being seen from the working directory; an error if there is none. -/
theorem C100_lookpath_partial {n : Nat} {img : OciImage} {w : Str} {env : List Str} {S : FS} (h : Has n img w env S) (hs : Straight S.get?)
    (hw : "..".toList ∉ comps w) {name : Str} (hn : Plain name) {r : Except Unit Str} (hr : img.lookPath n name = some r) :
    ∃ dirs, Spec.PathDirs (asImage w env) dirs ∧ ((∀ d ∈ dirs, "..".toList ∉ comps d) →
      (∀ p, r = .ok p ↔ ∃ before d after, dirs = before ++ d :: after ∧ p = Spec.absolute (Spec.way w d ++ [name]) ∧
        Spec.CanRun S.get? (Spec.way w d ++ [name]) ∧ ∀ d' ∈ before, ¬ Spec.CanRun S.get? (Spec.way w d' ++ [name])) ∧
      (r = .error () ↔ ∀ d ∈ dirs, ¬ Spec.CanRun S.get? (Spec.way w d ++ [name]))) := by
  refine ⟨(asImage w env).path, path_spec _, fun hd => ?_⟩
  unfold OciImage.lookPath at hr
  rw [init_of h, bind_some_ok, if_neg (by simpa using hn.2.2.2)] at hr
  exact lookIn_spec h hs hw hn _ hd r hr

/-- the path of a relative name, seen from the working directory -/
theorem wd_path {w : Str} {env : List Str} (hw : "..".toList ∉ comps w) {cs : List Str} (hp : ∀ c ∈ cs, Plain c) (hne : cs ≠ []) :
    pathJoin [(asImage w env).wd, join ['/'] cs] = Spec.absolute (comps w ++ cs) := by
  obtain ⟨hwd, hcw⟩ := wd_comps w env
  have hwd0 : (asImage w env).wd ≠ [] := by intro e; rw [e] at hwd; cases hwd
  have hwe : cleanElems true (split '/' (asImage w env).wd) = comps w := by rw [← hcw]; exact elems_comps (by rw [hcw]; exact hw)
  have hr : join ['/'] cs = render false cs := by simp [render, hne]
  have hne' : render false cs ≠ [] := Squash.render_ne_nil hp
  rw [hr]
  unfold pathJoin
  rw [show [(asImage w env).wd, render false cs].filter (· ≠ []) = [(asImage w env).wd, render false cs] by simp only [ne_eq, decide_not, List.filter_cons, hwd0, decide_false, Bool.not_false, if_true, hne', List.filter_nil]]
  show clean ((asImage w env).wd ++ ['/'] ++ render false cs) = _
  unfold clean
  rw [List.append_assoc, List.singleton_append, isRooted_append hwd0, hwd, split_append,
    split_render (fun c hc => (hp c hc).2.2.2), if_neg (by decide), if_neg hne, cleanElems_append_plain hp, hwe]
  rfl

/-- **C100** `LookPath` of a relative path with a slash, whenever it returns: that path seen from the working directory if the operating
system would find a file there that can be run, else an error; `PATH` is not searched. -/
theorem C100_relative_partial {n : Nat} {img : OciImage} {w : Str} {env : List Str} {S : FS} (h : Has n img w env S) (hs : Straight S.get?)
    (hw : "..".toList ∉ comps w) {cs : List Str} (hp : ∀ c ∈ cs, Plain c) (hne : 2 ≤ cs.length) {r : Except Unit Str}
    (hr : img.lookPath n (join ['/'] cs) = some r) :
    (r = .ok (Spec.absolute (comps w ++ cs)) ∧ Spec.CanRun S.get? (comps w ++ cs)) ∨ (r = .error () ∧ ¬ Spec.CanRun S.get? (comps w ++ cs)) := by
  have hne' : cs ≠ [] := by rintro rfl; simp at hne
  have hslash : '/' ∈ join ['/'] cs := by
    obtain ⟨a, b, rest, rfl⟩ : ∃ a b rest, cs = a :: b :: rest := by
      match cs, hne with
      | a :: b :: rest, _ => exact ⟨a, b, rest, rfl⟩
    rw [join_cons (by simp)]
    simp
  have hroot : isRooted (join ['/'] cs) = false := by
    have := isRooted_render (rooted := false) (cs := cs) (fun c hc => ⟨(hp c hc).1, (hp c hc).2.2.2⟩)
    simpa [render, hne'] using this
  unfold OciImage.lookPath at hr
  rw [init_of h, bind_some_ok, if_pos (by simpa using hslash)] at hr
  simp only [hroot, Bool.not_false, if_true] at hr
  rw [wd_path hw hp hne'] at hr
  have hpl : ∀ c ∈ comps w ++ cs, Plain c := by
    intro c hc
    rcases List.mem_append.mp hc with hc | hc
    · exact plain_comps hw c hc
    · exact hp c hc
  cases hce : checkExecutable n img (Spec.absolute (comps w ++ cs)) with
  | none => rw [hce] at hr; cases hr
  | some x =>
    rcases exec_spec h hs hpl (by simp [hne']) hce with ⟨rfl, hcan⟩ | ⟨rfl, hcan⟩
    · rw [hce] at hr
      cases hr
      exact .inl ⟨rfl, hcan⟩
    · rw [hce] at hr
      cases hr
      exact .inr ⟨rfl, hcan⟩

/-- **C100** `LookPath` of an absolute path, whenever it returns: that path if the operating system would find a file there that can be
run, else an error. -/
theorem C100_absolute_partial {n : Nat} {img : OciImage} {w : Str} {env : List Str} {S : FS} (h : Has n img w env S) (hs : Straight S.get?)
    {cs : List Str} (hp : ∀ c ∈ cs, Plain c) (hne : cs ≠ []) {r : Except Unit Str} (hr : img.lookPath n (Spec.absolute cs) = some r) :
    (r = .ok (Spec.absolute cs) ∧ Spec.CanRun S.get? cs) ∨ (r = .error () ∧ ¬ Spec.CanRun S.get? cs) := by
  unfold OciImage.lookPath at hr
  rw [init_of h, bind_some_ok, if_pos (by simp [Spec.absolute])] at hr
  simp only [show isRooted (Spec.absolute cs) = true from rfl, Bool.not_true, Bool.false_eq_true, if_false] at hr
  cases hce : checkExecutable n img (Spec.absolute cs) with
  | none => rw [hce] at hr; cases hr
  | some x =>
    rcases exec_spec h hs hp hne hce with ⟨rfl, hcan⟩ | ⟨rfl, hcan⟩
    · rw [hce] at hr
      cases hr
      exact .inl ⟨rfl, hcan⟩
    · rw [hce] at hr
      cases hr
      exact .inr ⟨rfl, hcan⟩

/-- what is found executable is an absolute path at which a file can be run -/
theorem exec_sound {n : Nat} {img : OciImage} {w : Str} {env : List Str} {S : FS} (h : Has n img w env S) (hs : Straight S.get?) {p : Str}
    (hr : checkExecutable n img p = some (.ok ())) :
    p = "/.".toList ∨ ∃ cs, cs ≠ [] ∧ (∀ c ∈ cs, Plain c) ∧ p = Spec.absolute cs ∧ Spec.CanRun S.get? cs := by
  have hr' := hr
  unfold checkExecutable at hr'
  obtain ⟨hd, h1, _⟩ := bind_ok.mp hr'
  unfold OciImage.stat at h1
  split at h1
  · cases h1
  rename_i hroot
  obtain ⟨i, _, h2⟩ := bind_ok.mp h1
  unfold fsStat at h2
  obtain ⟨x, h3, _⟩ := bind_ok.mp h2
  unfold openFile at h3
  split at h3
  · cases h3
  rename_i hv
  cases p with
  | nil => exact absurd rfl hroot
  | cons c q =>
    have hc : c = '/' := by simpa [isRooted] using hroot
    subst hc
    have hv : validPath q = true := by simpa using hv
    by_cases hq : q = ".".toList
    · left; rw [hq]; rfl
    · right
      have hpl : ∀ c ∈ split '/' q, Plain c := by
        unfold validPath at hv
        rw [Bool.or_eq_true] at hv
        rcases hv with hv | hv
        · exact absurd (by simpa using hv) hq
        · intro c hc
          have := List.all_eq_true.mp hv c hc
          simp only [Bool.and_eq_true, decide_eq_true_eq] at this
          exact ⟨this.1.1, this.1.2, this.2, split_no_sep hc⟩
      have e : '/' :: q = Spec.absolute (split '/' q) := by unfold Spec.absolute; rw [join_split]
      refine ⟨split '/' q, split_ne_nil '/' q, hpl, e, ?_⟩
      rw [e] at hr
      rcases exec_spec h hs hpl (split_ne_nil '/' q) hr with ⟨_, hcan⟩ | ⟨he, _⟩
      · exact hcan
      · cases he

/-- `fs.Stat` of a path with plain elements returns if path resolution ends -/
theorem fsStat_returns {m : Nat} {layers : List (List Entry)} {oc : Bool} {S : FS} (hload : loadLayers m layers oc = some (.ok S)) (hs : Straight S.get?)
    {cs : List Str} (hp : ∀ c ∈ cs, Plain c) (hne : cs ≠ []) (he : (∃ p, Leads S.get? [] cs p) ∨ Fails S.get? [] cs) :
    ∃ n0, ∀ n, n0 ≤ n → fsStat n S (join ['/'] cs) ≠ none := by
  have hi : Inv false S := load_inv (fun h => (nomatch h)) hload
  obtain ⟨n0, h0⟩ := (C68_returns_partial m layers oc S hload hs (join ['/'] cs)).mpr (.inr (by rw [(comps_join hp hne).2]; exact he))
  refine ⟨n0, fun n hn => ?_⟩
  cases ho : openFile n0 S (join ['/'] cs) with
  | none => exact absurd ho h0
  | some r =>
    have ho := open_mono hn ho
    unfold fsStat
    rw [ho]
    cases r with
    | error e => simp [Res.bind]
    | ok x =>
      rw [bind_some_ok]
      rcases statHandle_spec hi ho with ⟨_, _, _, _, _, e⟩ | ⟨_, e⟩ <;> (rw [e]; simp)

theorem exec_returns {img : OciImage} {w : Str} {env : List Str} {m : Nat} {S : FS} (h : Has m img w env S) (hs : Straight S.get?) {cs : List Str}
    (hp : ∀ c ∈ cs, Plain c) (hne : cs ≠ []) (he : (∃ p, Leads S.get? [] cs p) ∨ Fails S.get? [] cs) :
    ∃ n0, ∀ n, n0 ≤ n → checkExecutable n img (Spec.absolute cs) ≠ none := by
  obtain ⟨layers, hl, hload⟩ := h.layers
  obtain ⟨n0, h0⟩ := fsStat_returns hload hs hp hne he
  refine ⟨n0 + m, fun n hn => ?_⟩
  have h' : Has n img w env S := ⟨h.config, layers, hl, load_mono (by omega) hload⟩
  unfold checkExecutable OciImage.stat
  rw [show isRooted (Spec.absolute cs) = true from rfl, Bool.not_true, if_neg (by decide), init_of h', bind_some_ok,
    show (Spec.absolute cs).drop 1 = join ['/'] cs from rfl]
  simp only
  cases e : fsStat n S (join ['/'] cs) with
  | none => exact absurd e (h0 n (by omega))
  | some r =>
    cases r with
    | error u => simp [Res.bind]
    | ok hd =>
      rw [bind_some_ok]
      split <;> simp

/-- **C100** `LookPath` of a plain name returns if path resolution comes to an end (see C68) for the name in each directory of `PATH`. -/
theorem C100_returns_partial {img : OciImage} {w : Str} {env : List Str} {m : Nat} {S : FS} (h : Has m img w env S) (hs : Straight S.get?)
    (hw : "..".toList ∉ comps w) {name : Str} (hn : Plain name) :
    ∃ dirs, Spec.PathDirs (asImage w env) dirs ∧ ((∀ d ∈ dirs, "..".toList ∉ comps d) →
      (∀ d ∈ dirs, (∃ p, Leads S.get? [] (Spec.way w d ++ [name]) p) ∨ Fails S.get? [] (Spec.way w d ++ [name])) →
      ∃ n0, ∀ n, n0 ≤ n → Has n img w env S ∧ img.lookPath n name ≠ none) := by
  refine ⟨(asImage w env).path, path_spec _, fun hd he => ?_⟩
  obtain ⟨layers, hl, hload⟩ := h.layers
  have key : ∀ dirs : List Str, (∀ d ∈ dirs, "..".toList ∉ comps d) →
      (∀ d ∈ dirs, (∃ p, Leads S.get? [] (Spec.way w d ++ [name]) p) ∨ Fails S.get? [] (Spec.way w d ++ [name])) →
      ∃ n0, ∀ n, n0 ≤ n → lookIn n img (asImage w env).wd name dirs ≠ none := by
    intro dirs
    induction dirs with
    | nil => intro _ _; exact ⟨0, fun n _ => by rw [lookIn]; simp⟩
    | cons d dirs ih =>
      intro hd he
      obtain ⟨n1, h1⟩ := ih (fun d' h => hd d' (by simp [h])) (fun d' h => he d' (by simp [h]))
      obtain ⟨n2, h2⟩ := exec_returns h hs (cs := Spec.way w d ++ [name]) (fun c hc => by
        rcases List.mem_append.mp hc with hc | hc
        · exact way_plain hw (hd d (by simp)) c hc
        · rw [List.mem_singleton.mp hc]; exact hn) (by simp) (he d (by simp))
      refine ⟨n1 + n2, fun n hn' => ?_⟩
      rw [lookIn]
      rw [full_path (wd_comps w env).1 (wd_comps w env).2 hw (hd d (by simp)) hn]
      cases e : checkExecutable n img (Spec.absolute (Spec.way w d ++ [name])) with
      | none => exact absurd e (h2 n (by omega))
      | some r =>
        cases r with
        | ok u => simp
        | error u => exact h1 n (by omega)
  obtain ⟨n0, h0⟩ := key _ hd he
  refine ⟨n0 + m, fun n hn' => ?_⟩
  have h' : Has n img w env S := ⟨h.config, layers, hl, load_mono (by omega) hload⟩
  refine ⟨h', ?_⟩
  unfold OciImage.lookPath
  rw [init_of h', bind_some_ok, if_neg (by simpa using hn.2.2.2)]
  exact h0 n (by omega)

theorem lookIn_sound {n : Nat} {img : OciImage} {wd name : Str} : ∀ (dirs : List Str) (p : Str), lookIn n img wd name dirs = some (.ok p) →
    checkExecutable n img p = some (.ok ()) := by
  intro dirs
  induction dirs with
  | nil => intro p h; rw [lookIn] at h; cases h
  | cons d dirs ih =>
    intro p h
    rw [lookIn] at h
    split at h
    · cases h
    · rename_i e
      cases h
      exact e
    · exact ih p h

theorem look_sound {n : Nat} {img : OciImage} {name p : Str} (h : img.lookPath n name = some (.ok p)) :
    checkExecutable n img p = some (.ok ()) := by
  unfold OciImage.lookPath at h
  obtain ⟨i, _, h1⟩ := bind_ok.mp h
  split at h1
  · obtain ⟨_, h2, h3⟩ := bind_ok.mp h1
    cases h3
    exact h2
  · exact lookIn_sound _ _ h1

/-- **C100** Whatever `LookPath` finds, for any name at all, is the absolute path of a file that can be run. -/
theorem C100_found_partial {n : Nat} {img : OciImage} {w : Str} {env : List Str} {S : FS} (h : Has n img w env S) (hs : Straight S.get?)
    {name p : Str} (hr : img.lookPath n name = some (.ok p)) :
    p = "/.".toList ∨ ∃ cs, cs ≠ [] ∧ (∀ c ∈ cs, Plain c) ∧ p = Spec.absolute cs ∧ Spec.CanRun S.get? cs :=
  exec_sound h hs (look_sound hr)

/-- **C100** The interpreters that `Shebangs` returns are what `LookPath` found, hence files that can be run. -/
theorem C100_shebangs_partial {n : Nat} {img : OciImage} {w : Str} {env : List Str} {S : FS} (h : Has n img w env S) (hs : Straight S.get?)
    {generic c g : Str} (hr : img.shebangs n generic = some (.ok (c, g))) : ∀ p ∈ [c, g],
    p = "/.".toList ∨ ∃ cs, cs ≠ [] ∧ (∀ c ∈ cs, Plain c) ∧ p = Spec.absolute cs ∧ Spec.CanRun S.get? cs := by
  have helse : ∀ {name d p : Str}, orElse (img.lookPath n name) d = some (.ok p) → p = d ∨ checkExecutable n img p = some (.ok ()) := by
    intro name d p hp
    unfold orElse at hp
    split at hp
    · cases hp
    · rename_i e
      cases hp
      exact .inr (look_sound e)
    · cases hp; exact .inl rfl
  unfold OciImage.shebangs at hr
  obtain ⟨g0, h1, hr1⟩ := bind_ok.mp hr
  clear hr
  have hg0 := look_sound h1
  obtain ⟨c0, h2, hr2⟩ := bind_ok.mp hr1
  clear hr1
  have hc0 : checkExecutable n img c0 = some (.ok ()) := by
    split at h2
    · rcases helse h2 with rfl | hx
      · exact hg0
      · exact hx
    · cases h2; exact hg0
  obtain ⟨w0, h3, hr3⟩ := bind_ok.mp hr2
  clear hr2
  have hw0 : checkExecutable n img w0 = some (.ok ()) := by
    split at h3
    · rcases helse h3 with rfl | hx
      · exact hg0
      · exact hx
    · cases h3; exact hg0
  cases hr3
  intro p hp
  rcases List.mem_cons.mp hp with rfl | hp
  · exact exec_sound h hs hc0
  · rw [List.mem_singleton.mp hp]
    exact exec_sound h hs hw0

/-- **C100** `Stat` does not panic on a file of an image, whatever symlinks there are: it returns whenever opening the file returns. -/
theorem C100_no_panic {m n : Nat} {layers : List (List Entry)} {oc : Bool} {S : FS} (hload : loadLayers m layers oc = some (.ok S))
    {name : Str} (h : (openFile n S name).isSome) : (fsStat n S name).isSome := by
  have hi : Inv false S := load_inv (fun h => (nomatch h)) hload
  unfold fsStat
  cases ho : openFile n S name with
  | none => rw [ho] at h; cases h
  | some r =>
    cases r with
    | error e => rfl
    | ok x =>
      rw [bind_some_ok]
      rcases statHandle_spec hi ho with ⟨_, _, _, _, _, e⟩ | ⟨_, e⟩ <;> (rw [e]; rfl)

/-! ### cases -/

/-- an executable file -/
def exProg (name : String) : Entry := ⟨{ (exFile name [1]).header with mode := 0o755 }, [1]⟩

/-- a Debian-like image: "/bin" is a symlink, "python3" one to "python3.9"; the working directory is "/srv" -/
def exImage : OciImage where
  config := .ok (some ("/srv".toList, ["HOME=/root".toList, "PATH=/sbin:tools:/bin:/usr/bin".toList]))
  layers := .ok [[exDir "usr/", exDir "usr/bin/", exLink "bin" "usr/bin", exProg "usr/bin/python3.9", exLink "usr/bin/python3" "python3.9"],
    [exDir "srv/tools/", exFile "srv/tools/python3" [1], exProg "srv/tools/run"]]

def exS : FS := match exImage.layers with
  | .ok l => (match loadLayers 9 l true with
    | some (.ok S) => S
    | _ => [])
  | _ => []

theorem exHas : Has 9 exImage "/srv".toList ["HOME=/root".toList, "PATH=/sbin:tools:/bin:/usr/bin".toList] exS :=
  ⟨.inl rfl, _, rfl, by decide +kernel⟩

example : Straight exS.get? := straight_of (by decide +kernel)

example : exImage.lookPath 9 "python3".toList = some (.ok "/bin/python3".toList) := by decide +kernel
example : exImage.lookPath 9 "run".toList = some (.ok "/srv/tools/run".toList) := by decide +kernel
example : exImage.lookPath 9 "tools/run".toList = some (.ok "/srv/tools/run".toList) := by decide +kernel
example : exImage.lookPath 9 "python2".toList = some (.error ()) := by decide +kernel
example : exImage.lookPath 9 "/bin/python3".toList = some (.ok "/bin/python3".toList) := by decide +kernel
example : exImage.shebangs 9 "python3".toList = some (.ok ("/bin/python3".toList, "/bin/python3".toList)) := by decide +kernel
example : (exImage.stat 9 "/bin/python3".toList).map (·.map fun h => (h.mode, h.name)) = some (.ok (0o755, "usr/bin/python3".toList)) := by
  decide +kernel

/-- so "/bin/python3" can be run in that image -/
example : Spec.CanRun exS.get? ["bin".toList, "python3".toList] := by
  have hp : ∀ c ∈ ["bin".toList, "python3".toList], Plain c := by
    intro c hc
    rcases List.mem_cons.mp hc with rfl | hc
    · exact ⟨by decide, by decide, by decide, by decide⟩
    · rw [List.mem_singleton.mp hc]; exact ⟨by decide, by decide, by decide, by decide⟩
  have he : exImage.lookPath 9 (Spec.absolute ["bin".toList, "python3".toList]) = some (.ok "/bin/python3".toList) := by decide +kernel
  rcases C100_absolute_partial exHas (straight_of (by decide +kernel)) hp (by simp) he with ⟨_, h⟩ | ⟨h, _⟩
  · exact h
  · cases h

/-! ### the cases in which the code differs -/

/-- `..` behind a symlink in `PATH`: "/lnk" is a symlink to "/opt/py/cur", so that the operating system finds "/opt/py/bin/python3" -/
def exDots : OciImage where
  config := .ok (some ([], ["PATH=/lnk/../bin".toList]))
  layers := .ok [[exDir "opt/py/cur/", exProg "opt/py/bin/python3", exLink "lnk" "/opt/py/cur"]]

/-- C100 fails if a directory in `PATH` has `..`: the path is cleaned by its text, and "python3" is not found -/
theorem C100_violated : ∃ S, Has 9 exDots [] ["PATH=/lnk/../bin".toList] S ∧
    Spec.CanRun S.get? (comps "/lnk/../bin/python3".toList) ∧ exDots.lookPath 9 "python3".toList = some (.error ()) := by
  let S := match loadLayers 9 [[exDir "opt/py/cur/", exProg "opt/py/bin/python3", exLink "lnk" "/opt/py/cur"]] true with
    | some (.ok S) => S
    | _ => []
  refine ⟨S, ⟨.inl rfl, _, rfl, by decide +kernel⟩, ?_, by decide +kernel⟩
  have nolink : ∀ {nd : Node}, nd.link = none → ∀ t, ¬ LinkTo nd t := fun h t ht => by rw [linkTo_iff.mp ht] at h; cases h
  refine ⟨["opt".toList, "py".toList, "bin".toList, "python3".toList], ⟨some (exProg "opt/py/bin/python3").header, []⟩, _, ?_, by decide +kernel, rfl, by decide, by decide, by decide⟩
  rw [show comps "/lnk/../bin/python3".toList = ["lnk".toList, "..".toList, "bin".toList, "python3".toList] by decide +kernel]
  refine .link (nd := ⟨some (exLink "lnk" "/opt/py/cur").header, []⟩) (by decide) (by decide +kernel) ⟨_, rfl, rfl, rfl⟩ (by decide) ?_
  rw [if_pos (by decide), show comps (exLink "lnk" "/opt/py/cur").header.linkname ++ ["..".toList, "bin".toList, "python3".toList] =
    ["opt".toList, "py".toList, "cur".toList, "..".toList, "bin".toList, "python3".toList] by decide +kernel]
  refine .step (nd := ⟨none, []⟩) (by decide) (by decide +kernel) (nolink (by decide)) (fun _ => isDir_iff.mpr (by decide)) ?_
  refine .step (nd := ⟨none, []⟩) (by decide) (by decide +kernel) (nolink (by decide)) (fun _ => isDir_iff.mpr (by decide)) ?_
  refine .step (nd := ⟨some (exDir "opt/py/cur").header, []⟩) (by decide) (by decide +kernel) (nolink (by decide)) (fun _ => isDir_iff.mpr (by decide)) ?_
  refine .up ?_
  refine .step (nd := ⟨none, []⟩) (by decide) (by decide +kernel) (nolink (by decide)) (fun _ => isDir_iff.mpr (by decide)) ?_
  exact .step (nd := ⟨some (exProg "opt/py/bin/python3").header, []⟩) (by decide) (by decide +kernel) (nolink (by decide)) (fun h => absurd rfl h) .here

/-- C100 fails for absolute paths with a double slash, a dot or a slash at the end: they are not valid in `io/fs`, and only names that are
joined to a directory are cleaned first -/
theorem C100_violated_unclean : ∃ S, Has 9 exImage "/srv".toList ["HOME=/root".toList, "PATH=/sbin:tools:/bin:/usr/bin".toList] S ∧
    Spec.CanRun S.get? (comps "/usr//bin/python3.9".toList) ∧ exImage.lookPath 9 "/usr//bin/python3.9".toList = some (.error ()) := by
  refine ⟨exS, exHas, ?_, by decide +kernel⟩
  have hp : ∀ c ∈ ["usr".toList, "bin".toList, "python3.9".toList], Plain c := by
    intro c hc
    rcases List.mem_cons.mp hc with rfl | hc
    · exact ⟨by decide, by decide, by decide, by decide⟩
    rcases List.mem_cons.mp hc with rfl | hc
    · exact ⟨by decide, by decide, by decide, by decide⟩
    · rw [List.mem_singleton.mp hc]; exact ⟨by decide, by decide, by decide, by decide⟩
  have he : exImage.lookPath 9 (Spec.absolute ["usr".toList, "bin".toList, "python3.9".toList]) = some (.ok "/usr/bin/python3.9".toList) := by
    decide +kernel
  rw [show comps "/usr//bin/python3.9".toList = ["usr".toList, "bin".toList, "python3.9".toList] by decide +kernel]
  rcases C100_absolute_partial exHas (straight_of (by decide +kernel)) hp (by simp) he with ⟨_, h⟩ | ⟨h, _⟩
  · exact h
  · cases h

end Python
