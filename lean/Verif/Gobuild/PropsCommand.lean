import Verif.Gobuild.Props
/-! C101: the command `layer gobuild`, and building again. -/
namespace Gobuild
open Go Fsutil Bdist

/-! ### specification -/

/-- what matters of a file: everything but its times -/
def Spec.view (w : WalkItem) : Bool × Str × Option Hdr × Option Str × Option Bytes :=
  (w.err, w.rel, w.info.map Fsutil.Spec.timeless, w.target, w.content)

/-- two trees have the same files, but for the times: the same names in the same order, each with the same content and
attributes, and the same names are names of one file -/
def Spec.SameFiles (ws ws' : List WalkItem) : Prop :=
  (Fsutil.Spec.tree ws).map Spec.view = (Fsutil.Spec.tree ws').map Spec.view ∧
  ∀ i j : Nat, (Fsutil.Spec.tree ws)[i]?.map WalkItem.file = (Fsutil.Spec.tree ws)[j]?.map WalkItem.file ↔
    (Fsutil.Spec.tree ws')[i]?.map WalkItem.file = (Fsutil.Spec.tree ws')[j]?.map WalkItem.file

/-- the entries, without times -/
def Spec.untimed (es : List (Hdr × Bytes)) : List (Hdr × Bytes) := es.map (fun e => (Fsutil.Spec.timeless e.1, e.2))

/-! ### entries for the same files -/

theorem find_same {l l' : List (Str × Nat)} {f f' : Nat} (hn : l.map (·.1) = l'.map (·.1))
    (hf : ∀ k (h : k < l.length) (h' : k < l'.length), l[k].2 = f ↔ l'[k].2 = f') :
    (l.find? (fun e => e.2 = f)).map (·.1) = (l'.find? (fun e => e.2 = f')).map (·.1) := by
  induction l generalizing l' with
  | nil =>
    cases l' with
    | nil => rfl
    | cons _ _ => cases hn
  | cons a l ih =>
    cases l' with
    | nil => cases hn
    | cons a' l' =>
      have h0 := hf 0 (by simp) (by simp)
      simp only [List.getElem_cons_zero] at h0
      simp only [List.map_cons, List.cons.injEq] at hn
      by_cases ha : a.2 = f
      · rw [List.find?_cons_of_pos (by simp [ha]), List.find?_cons_of_pos (by simp [h0.mp ha])]
        simp [hn.1]
      · rw [List.find?_cons_of_neg (by simp [ha]), List.find?_cons_of_neg (by simpa using fun x => ha (h0.mpr x))]
        exact ih hn.2 (fun k h h' => hf (k + 1) (Nat.succ_lt_succ h) (Nat.succ_lt_succ h'))

theorem hardLink_same {l l' : List (Str × Nat)} {f f' : Nat} {h h' : Hdr}
    (hfind : (l.find? (fun e => e.2 = f)).map (·.1) = (l'.find? (fun e => e.2 = f')).map (·.1))
    (hh : Fsutil.Spec.timeless h = Fsutil.Spec.timeless h') :
    Fsutil.Spec.timeless (hardLink l f h) = Fsutil.Spec.timeless (hardLink l' f' h') := by
  unfold hardLink
  cases h1 : l.find? (fun e => e.2 = f) with
  | none =>
    cases h2 : l'.find? (fun e => e.2 = f') with
    | none => exact hh
    | some b => rw [h1, h2] at hfind; cases hfind
  | some a =>
    cases h2 : l'.find? (fun e => e.2 = f') with
    | none => rw [h1, h2] at hfind; cases hfind
    | some b =>
      rw [h1, h2] at hfind
      simp only [Option.map_some, Option.some.injEq] at hfind
      simp only [Fsutil.Spec.timeless, Hdr.mk.injEq] at hh ⊢
      simp only [hfind]
      simp_all

theorem readLink_same {t : Option Str} {h h' x x' : Hdr} (hh : Fsutil.Spec.timeless h = Fsutil.Spec.timeless h')
    (e : readLink t h = .ok x) (e' : readLink t h' = .ok x') : Fsutil.Spec.timeless x = Fsutil.Spec.timeless x' := by
  have a := readLink_ok e
  have a' := readLink_ok e'
  have ht : (Fsutil.Spec.timeless h).typeflag = (Fsutil.Spec.timeless h').typeflag := congrArg Hdr.typeflag hh
  change h.typeflag = h'.typeflag at ht
  by_cases hs : h.typeflag = typeSymlink
  · obtain ⟨y, h1, rfl⟩ := a.2 hs
    obtain ⟨y', h2, rfl⟩ := a'.2 (ht ▸ hs)
    rw [h1] at h2
    cases h2
    simp only [Fsutil.Spec.timeless, Hdr.mk.injEq] at hh ⊢
    simp_all
  · rw [a.1 hs, a'.1 (ht ▸ hs)]
    exact hh

theorem walkEntries_same {accepts accepts' : Hdr → Bool} {pre : Option Prefix} {chown : Option Ownership} {t t' : Int}
    {ws ws' : List WalkItem} {es es' : List (Hdr × Bytes)} (hs : Spec.SameFiles ws ws')
    (h : walkEntries accepts pre chown t [] ws = .ok es) (h' : walkEntries accepts' pre chown t' [] ws' = .ok es') :
    Spec.untimed es = Spec.untimed es' := by
  obtain ⟨hl, hg⟩ := walkEntries_get h
  obtain ⟨hl', hg'⟩ := walkEntries_get h'
  have hlen : (Fsutil.Spec.tree ws).length = (Fsutil.Spec.tree ws').length := by
    simpa using congrArg List.length hs.1
  unfold Spec.untimed
  apply List.ext_getElem (by simp [hl, hl', hlen])
  intro i hi hi'
  simp only [List.length_map] at hi hi'
  rw [List.getElem_map, List.getElem_map]
  have k1 : i < (Fsutil.Spec.tree ws).length := by omega
  have k2 : i < (Fsutil.Spec.tree ws').length := by omega
  have hview : ∀ k (h1 : k < (Fsutil.Spec.tree ws).length) (h2 : k < (Fsutil.Spec.tree ws').length),
      Spec.view (Fsutil.Spec.tree ws)[k] = Spec.view (Fsutil.Spec.tree ws')[k] := by
    intro k h1 h2
    have := congrArg (fun l : List (Bool × Str × Option Hdr × Option Str × Option Bytes) => l[k]?) hs.1
    simpa [h1, h2] using this
  have hd : (Fsutil.Spec.tree ws)[i].rel ≠ ['.'] := of_decide_eq_true (List.mem_filter.mp (List.getElem_mem k1)).2
  have hd' : (Fsutil.Spec.tree ws')[i].rel ≠ ['.'] := of_decide_eq_true (List.mem_filter.mp (List.getElem_mem k2)).2
  obtain ⟨inf, x, b, a1, a2, a3, a4⟩ := (walkEntry_ok (hg i hi k1)).2.2 hd
  obtain ⟨inf', x', b', c1, c2, c3, c4⟩ := (walkEntry_ok (hg' i hi' k2)).2.2 hd'
  rw [Option.some.injEq] at a3 c3
  rw [a3, c3]
  have hv := hview i k1 k2
  simp only [Spec.view, Prod.mk.injEq] at hv
  obtain ⟨_, v2, v3, v4, v5⟩ := hv
  rw [a1, c1] at v3
  simp only [Option.map_some, Option.some.injEq] at v3
  have hx : Fsutil.Spec.timeless x = Fsutil.Spec.timeless x' := by
    rw [v4] at a2
    refine readLink_same ?_ a2 c2
    apply hardLink_same
    · apply find_same
      · apply List.ext_getElem
        · simp only [List.nil_append, List.length_map, List.length_take]; omega
        · intro k g1 g2
          simp only [List.nil_append, List.length_map, List.length_take] at g1 g2
          simp only [List.nil_append, List.getElem_map, List.getElem_take]
          have := hview k (by omega) (by omega)
          simp only [Spec.view, Prod.mk.injEq] at this
          rw [this.2.1]
      · intro k g1 g2
        simp only [List.nil_append, List.length_map, List.length_take] at g1 g2
        simp only [List.nil_append, List.getElem_map, List.getElem_take]
        have := hs.2 k i
        rw [List.getElem?_eq_getElem (by omega), List.getElem?_eq_getElem k1, List.getElem?_eq_getElem (by omega),
          List.getElem?_eq_getElem k2] at this
        simpa using this
    · simp only [Fsutil.Spec.timeless, Hdr.mk.injEq] at v3 ⊢
      rw [v2]
      simp_all
  refine Prod.ext ?_ ?_
  · exact hx
  · show b = b'
    have ht : (Fsutil.Spec.timeless x).typeflag = (Fsutil.Spec.timeless x').typeflag := congrArg Hdr.typeflag hx
    change x.typeflag = x'.typeflag at ht
    have p := bodyOf_ok a4
    have p' := bodyOf_ok c4
    by_cases hr : x.typeflag = typeReg
    · have q := p.1 hr
      have q' := p'.1 (ht ▸ hr)
      rw [v5, q'] at q
      exact (Option.some.inj q).symm
    · rw [p.2 hr, p'.2 (ht ▸ hr)]

theorem layerFromDir_same {n n' : Nat} {accepts accepts' : Hdr → Bool} {p : Prefix} {chown : Option Ownership} {z t t' : Int}
    {ws ws' : List WalkItem} {es es' : List (Hdr × Bytes)} (hs : Spec.SameFiles ws ws')
    (h : layerFromDir n accepts (some p) chown z t ws = some (.ok es))
    (h' : layerFromDir n' accepts' (some p) chown z t' ws' = some (.ok es'))
    (hd : ∀ a b, prefixDirs n p.dirName = some a → prefixDirs n' p.dirName = some b → a = b) :
    Spec.untimed es = Spec.untimed es' := by
  obtain ⟨ps, ts, a1, a2, rfl⟩ := layerFromDir_ok h
  obtain ⟨ps', ts', b1, b2, rfl⟩ := layerFromDir_ok h'
  have := walkEntries_same hs a2 b2
  obtain ⟨ds, c1, rfl⟩ := prefixEntries_ok a1
  obtain ⟨ds', d1, rfl⟩ := prefixEntries_ok b1
  have := hd _ _ c1 d1
  subst this
  unfold Spec.untimed at *
  rw [List.map_append, List.map_append, this, List.map_map, List.map_map]
  rfl

theorem prefixDirs_mono {n n' : Nat} {s : Str} {a b : List Str} (h : prefixDirs n s = some a) (h' : prefixDirs n' s = some b) : a = b := by
  induction n generalizing n' s a b with
  | zero => cases h
  | succ n ih =>
    cases n' with
    | zero => cases h'
    | succ n' =>
      rw [prefixDirs] at h h'
      split at h
      · rename_i hs
        rw [if_pos hs] at h'
        cases h; cases h'; rfl
      · rename_i hs
        rw [if_neg hs] at h'
        obtain ⟨x, hx, rfl⟩ := Option.map_eq_some_iff.mp h
        obtain ⟨y, hy, rfl⟩ := Option.map_eq_some_iff.mp h'
        rw [ih hx hy]

/-! ### the command -/

theorem asRead_same {z : Int} {es es' : List (Hdr × Bytes)} :
    Fsutil.Spec.SameButTimes (asRead z es) (asRead z es') ↔ Spec.untimed es = Spec.untimed es' := by
  unfold Fsutil.Spec.SameButTimes asRead Spec.untimed
  simp only [List.map_map]
  have : ((fun e : Hdr × Rd => (Fsutil.Spec.timeless e.1, Fsutil.Spec.data e.2)) ∘ fun e : Hdr × Bytes =>
      (({ e.1 with modTime := roundSecond e.1.modTime, accessTime := z, changeTime := z } : Hdr), (⟨[e.2], .eof⟩ : Rd))) =
      fun e => (Fsutil.Spec.timeless e.1, e.2) := by
    funext e
    simp [Fsutil.Spec.timeless, Fsutil.Spec.data]
  rw [this]

theorem asRead_intact (z : Int) (es : List (Hdr × Bytes)) : Fsutil.Spec.Intact (asRead z es) := by
  refine ⟨rfl, ?_⟩
  intro e he
  obtain ⟨x, _, rfl⟩ := List.mem_map.mp he
  rfl

/-- **C101**, `--output`: when the new layer has been made and the file holds an older one made by this program, the file is
kept if the two layers have the same entries but for the times, and replaced otherwise -/
theorem C101_output {n k : Nat} {m : GoMachine} {now : Int} {args : List Str} {h : Host} {o : GoOut} {es old : List (Hdr × Bytes)}
    {f : Host → Old} (ha : args ≠ []) (e : layerFromGo n m now args h = some o) (he : o.res = .ok es)
    (hf : f o.host = .layer (.ok (asRead m.zeroTime old, false))) (hk : ∀ x ∈ es, x.2.length < k) :
    command n k m now args (.file f true) h =
      some (o.host, o.ran, if Spec.untimed es = Spec.untimed old then .kept else .written) := by
  unfold command
  rw [if_neg (by cases args with | nil => exact absurd rfl ha | cons _ _ => simp), e]
  simp only [Option.bind_some, he, hf]
  have hn : Fsutil.Spec.Enough k (asRead m.zeroTime es) := by
    intro x hx
    obtain ⟨y, hy, rfl⟩ := List.mem_map.mp hx
    simpa [Fsutil.Spec.data] using hk y hy
  have := (C58_rewritten_iff_partial hn (asRead_intact _ es) m.zeroTime (by
    intro x hx; obtain ⟨y, _, rfl⟩ := List.mem_map.mp hx; rfl)).2 (asRead m.zeroTime old) (asRead_intact _ old) (by
    intro x hx; obtain ⟨y, _, rfl⟩ := List.mem_map.mp hx; rfl)
  by_cases hs : Spec.untimed es = Spec.untimed old
  · rw [this.2 (asRead_same.mpr hs), if_pos hs]; rfl
  · rw [this.1 (fun x => hs (asRead_same.mp x)), if_neg hs]; rfl

/-- **C101**, building again: if a later build — at another time, in another temporary directory, on another machine — leaves
the same files but for their times, then with `--output` the file of the earlier build is kept as it is. -/
theorem C101_rebuild {n k : Nat} {m m' : GoMachine} {now now' : Int} {pkgs pkgs' : List Str} {h h' : Host} {o o' : GoOut}
    {es es' : List (Hdr × Bytes)} {d d' : List Str} {f : Host → Old}
    (hd : m.tmp = some d) (e : layerFromGo n m now pkgs h = some o) (he : o.res = .ok es)
    (ha : pkgs' ≠ []) (hd' : m'.tmp = some d') (e' : layerFromGo n m' now' pkgs' h' = some o') (he' : o'.res = .ok es')
    (hz : m'.zeroTime = m.zeroTime) (hf : f o'.host = .layer (.ok (asRead m.zeroTime es, false))) (hk : ∀ x ∈ es', x.2.length < k)
    (hsame : ∀ c c', o.ran = [c] → o'.ran = [c'] →
      Spec.SameFiles (m'.walk (m'.run c' (h'.set d' .dir)).1 d') (m.walk (m.run c (h.set d .dir)).1 d)) :
    command n k m' now' pkgs' (.file f true) h' = some (o'.host, o'.ran, .kept) := by
  rw [C101_output ha e' he' (by rw [hf, hz]) hk, if_pos]
  obtain ⟨c, h1, _, h3⟩ := layerFromGo_cases hd e
  obtain ⟨c', h1', _, h3'⟩ := layerFromGo_cases hd' e'
  have l := ((h3 es).mp he).2.2
  have l' := ((h3' es').mp he').2.2
  rw [hz] at l'
  exact layerFromDir_same (hsame c c' h1 h1') l' l (fun _ _ => prefixDirs_mono)

/-- **C101**, failures: without arguments nothing is run; when `LayerFromGo` fails the command fails; in both cases neither the
output file nor the standard output is written -/
theorem C101_failure {n k : Nat} {m : GoMachine} {now : Int} {args : List Str} {dest : Dest} {h : Host} :
    command n k m now [] dest h = some (h, [], .failed) ∧
    ∀ o u, layerFromGo n m now args h = some o → o.res = .error u → ∃ h' r, command n k m now args dest h = some (h', r, .failed) := by
  refine ⟨rfl, fun o u e he => ?_⟩
  unfold command
  split
  · exact ⟨_, _, rfl⟩
  · rw [e]
    simp only [Option.bind_some, he]
    exact ⟨_, _, rfl⟩

/-! ### examples, and the counterexample -/

/-- a machine on which user 1000 runs a compiler that makes one program, `hello`, at the time `t` -/
def exMachine (tmp : List Str) (t : Int) : GoMachine where
  tmp := some tmp
  environ := ["HOME=/home/u".toList, "GOOS=plan9".toList, "GOFLAGS=-race=x".toList]
  run := fun _ h => (h.set (tmp ++ ["hello".toList]) (.leaf (some [1, 2]) { sampleHdr [] '0' t 2 with uid := 1000, gid := 1000, mode := 0o755 }), true)
  walk := fun h p =>
    ⟨false, ['.'], none, 1, none, none⟩ ::
    match h (p ++ ["hello".toList]) with
    | some (.leaf c i) => [⟨false, "hello".toList, some i, 2, none, c⟩]
    | _ => []
  remove := fun h p => (fun q => if p <+: q then none else h q, true)
  accepts := fun _ => true
  zeroTime := 0

def exTmp : List Str := ["tmp".toList, "ocibuild-gobuild.1".toList]
def exTmp' : List Str := ["tmp".toList, "ocibuild-gobuild.2".toList]

def exDirHdr (name : Str) (t : Int) : Hdr × Bytes :=
  (⟨name, '5', [], 0, 0o755, 0, 0, "root".toList, "root".toList, t, 0, 0, [], []⟩, [])

def exLayer (t : Int) : List (Hdr × Bytes) :=
  [exDirHdr "usr".toList t, exDirHdr "usr/local".toList t, exDirHdr "usr/local/bin".toList t,
   (⟨"usr/local/bin/hello".toList, '0', [], 2, 0o755, 1000, 1000, [], [], t, t, t, [], []⟩, [1, 2])]

/-- the layer, in either temporary directory -/
example : (layerFromGo 4 (exMachine exTmp 7) 9 ["-x".toList] (fun _ => none)).map (·.res) = some (.ok
    [exDirHdr "usr".toList 9, exDirHdr "usr/local".toList 9, exDirHdr "usr/local/bin".toList 9,
     (⟨"usr/local/bin/hello".toList, '0', [], 2, 0o755, 1000, 1000, [], [], 7, 7, 7, [], []⟩, [1, 2])]) := by
  decide +kernel

example : (layerFromGo 4 (exMachine exTmp' 7) 5 ["-x".toList] (fun _ => none)).map (·.res) = some (.ok (exLayer 5)) := by
  decide +kernel

theorem exRemoves (d : List Str) (t : Int) : Spec.Removes (exMachine d t) := fun _ _ _ _ => rfl

theorem exWalks (d : List Str) (t : Int) : Spec.Walks (exMachine d t) := by
  intro h p w hw hne
  rcases List.mem_cons.mp hw with rfl | hw
  · exact absurd rfl hne
  · have : w.rel = "hello".toList := by
      revert hw
      split
      · intro hw; rw [List.mem_singleton.mp hw]
      · intro hw; cases hw
    rw [this]
    refine ⟨["hello".toList], by simp, ?_, by decide⟩
    intro c hc
    rw [List.mem_singleton.mp hc]
    refine ⟨?_, ?_, ?_, ?_⟩ <;> decide

/-- the hypotheses of the theorems about what is left behind -/
example : (exMachine exTmp 7).tmp = some exTmp ∧ (∀ h, ((exMachine exTmp 7).remove h exTmp).2 = true) ∧
    (∀ c h q, ¬ exTmp <+: q → ((exMachine exTmp 7).run c h).1 q = h q) := by
  refine ⟨rfl, fun _ => rfl, ?_⟩
  intro c h q hq
  show (if q = exTmp ++ ["hello".toList] then _ else h q) = h q
  rw [if_neg]
  rintro rfl
  exact hq (List.prefix_append _ _)

/-- building again an hour later in another directory leaves the same files -/
example : Spec.SameFiles ((exMachine exTmp' 3600).walk ((exMachine exTmp' 3600).run (goCmd [] exTmp' []) (fun _ => none)).1 exTmp')
    ((exMachine exTmp 7).walk ((exMachine exTmp 7).run (goCmd [] exTmp []) (fun _ => none)).1 exTmp) := by
  have h1 : (exMachine exTmp' 3600).walk ((exMachine exTmp' 3600).run (goCmd [] exTmp' []) (fun _ => none)).1 exTmp' =
    [⟨false, ['.'], none, 1, none, none⟩, ⟨false, "hello".toList, some { sampleHdr [] '0' 3600 2 with uid := 1000, gid := 1000, mode := 0o755 }, 2, none, some [1, 2]⟩] := by
    rfl
  have h2 : (exMachine exTmp 7).walk ((exMachine exTmp 7).run (goCmd [] exTmp []) (fun _ => none)).1 exTmp =
    [⟨false, ['.'], none, 1, none, none⟩, ⟨false, "hello".toList, some { sampleHdr [] '0' 7 2 with uid := 1000, gid := 1000, mode := 0o755 }, 2, none, some [1, 2]⟩] := by
    rfl
  rw [h1, h2]
  refine ⟨rfl, ?_⟩
  intro i j
  rcases i with _ | i <;> rcases j with _ | j <;> simp [Fsutil.Spec.tree]

/-- … so the file is kept -/
example : ((command 4 10 (exMachine exTmp' 3600) 7200 ["./cmd".toList]
    (.file (fun _ => .layer (.ok (asRead 0 (exLayer 7), false))) true) (fun _ => none)).map (·.2.2)) = some .kept := by
  decide +kernel

/-- **C101 does not hold** in full: the programs in the layer are not owned by root, as gobuild.go:55-65 asks for, but by the
user who runs the build (see C60) -/
theorem C101_violated : ∃ m : GoMachine, Spec.Removes m ∧ Spec.Walks m ∧ ∃ o es, layerFromGo 4 m 9 ["./cmd".toList] (fun _ => none) = some o ∧
    o.res = .ok es ∧ ∃ e ∈ es, e.1.name = "usr/local/bin/hello".toList ∧ e.1.uid = 1000 ∧ e.1.uname ≠ "root".toList := by
  refine ⟨exMachine exTmp 9, exRemoves _ _, exWalks _ _, ?_⟩
  have h : (layerFromGo 4 (exMachine exTmp 9) 9 ["./cmd".toList] (fun _ => none)).map (·.res) = some (.ok (exLayer 9)) := by decide +kernel
  obtain ⟨o, ho, hr⟩ := Option.map_eq_some_iff.mp h
  exact ⟨o, exLayer 9, ho, hr, _, List.mem_cons_of_mem _ (List.mem_cons_of_mem _ (List.mem_cons_of_mem _ (List.mem_singleton.mpr rfl))), rfl, rfl, by decide⟩

end Gobuild
