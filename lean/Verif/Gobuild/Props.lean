import Verif.Gobuild.Model
import Verif.Fsutil.PropsDir
import Verif.Fsutil.PropsDiff
/-! C101: layers of Go binaries. -/
namespace Gobuild
open Go Fsutil Bdist

/-! ### specification -/

/-- the variable that an entry of an environment sets, and its value -/
def Spec.variable (e : Str) : Str := e.takeWhile (· ≠ '=')
def Spec.value (e : Str) : Str := (e.dropWhile (· ≠ '=')).drop 1

/-- the value of a variable in the environment of a command: the last entry for it counts (os/exec) -/
def Spec.getenv (env : List Str) (k : Str) : Option Str := (env.reverse.find? (fun e => Spec.variable e = k)).map Spec.value

/-- the arguments that the go command takes as packages: those after the first "--" -/
def Spec.operands (args : List Str) : List Str := (args.dropWhile (· ≠ "--".toList)).drop 1

/-- `os.RemoveAll`, when it succeeds, removes what is at or below the path, and nothing else -/
def Spec.Removes (m : GoMachine) : Prop :=
  ∀ h p, (m.remove h p).2 = true → ∀ q, (m.remove h p).1 q = if p <+: q then none else h q

/-- the walk reports names of files inside the directory, besides the directory itself -/
def Spec.Walks (m : GoMachine) : Prop := ∀ h p, ∀ w ∈ m.walk h p, w.rel ≠ ['.'] → Fsutil.Spec.InTree w.rel

/-! ### the command -/

theorem layerFromGo_ran {n : Nat} {m : GoMachine} {t : Int} {pkgs : List Str} {h : Host} {o : GoOut}
    (e : layerFromGo n m t pkgs h = some o) : (m.tmp = none ∧ o.ran = []) ∨ ∃ d, m.tmp = some d ∧ o.ran = [goCmd m.environ d pkgs] := by
  unfold layerFromGo at e
  cases hd : m.tmp with
  | none => rw [hd] at e; cases e; exact Or.inl ⟨rfl, rfl⟩
  | some d =>
    rw [hd] at e
    refine Or.inr ⟨d, rfl, ?_⟩
    simp only at e
    split at e
    · cases e; rfl
    · obtain ⟨r, _, rfl⟩ := Option.map_eq_some_iff.mp e; rfl

theorem dropWhile_operands (d : List Str) (pkgs : List Str) :
    Spec.operands (["build".toList, "-trimpath".toList, "-o".toList, render true d, "--".toList] ++ pkgs) = pkgs := by
  unfold Spec.operands
  have h : ¬ render true d = ['-', '-'] := by
    intro e
    have : (render true d).head? = some '/' := by unfold render; simp
    rw [e] at this
    exact absurd this (by decide)
  simp [List.dropWhile, h]

/-- **C101**, the command: with a temporary directory `d`, exactly one command is run.  It is `go build -trimpath -o d`, and
the packages it is to build are exactly the given ones, even those that look like flags.  In its environment GOOS is linux and
GOARCH is amd64, whatever they were before; every other variable has the value it has in the environment of the process. -/
theorem C101_command {n : Nat} {m : GoMachine} {t : Int} {pkgs : List Str} {h : Host} {o : GoOut} {d : List Str}
    (hd : m.tmp = some d) (e : layerFromGo n m t pkgs h = some o) :
    ∃ c, o.ran = [c] ∧ c.exe = "go".toList ∧ c.args.take 4 = ["build".toList, "-trimpath".toList, "-o".toList, render true d] ∧
      Spec.operands c.args = pkgs ∧
      Spec.getenv c.env "GOOS".toList = some "linux".toList ∧ Spec.getenv c.env "GOARCH".toList = some "amd64".toList ∧
      ∀ k, k ≠ "GOOS".toList → k ≠ "GOARCH".toList → Spec.getenv c.env k = Spec.getenv m.environ k := by
  rcases layerFromGo_ran e with ⟨hn, _⟩ | ⟨d', hd', hr⟩
  · rw [hd] at hn; cases hn
  · rw [hd] at hd'
    cases hd'
    refine ⟨_, hr, rfl, rfl, dropWhile_operands d pkgs, ?_, ?_, ?_⟩
    · unfold Spec.getenv goCmd
      rw [List.reverse_append]
      rfl
    · unfold Spec.getenv goCmd
      rw [List.reverse_append]
      rfl
    · intro k h1 h2
      unfold Spec.getenv goCmd
      simp only
      rw [List.reverse_append]
      congr 1
      show List.find? _ ("GOARCH=amd64".toList :: "GOOS=linux".toList :: m.environ.reverse) = _
      rw [List.find?_cons_of_neg (by
        intro x
        exact h2 ((of_decide_eq_true x).symm.trans (by decide)))]
      rw [List.find?_cons_of_neg (by
        intro x
        exact h1 ((of_decide_eq_true x).symm.trans (by decide)))]

/-! ### what is left behind -/

theorem layerFromGo_cases {n : Nat} {m : GoMachine} {t : Int} {pkgs : List Str} {h : Host} {o : GoOut} {d : List Str}
    (hd : m.tmp = some d) (e : layerFromGo n m t pkgs h = some o) :
    ∃ c, o.ran = [c] ∧ o.host = (m.remove (m.run c (h.set d .dir)).1 d).1 ∧
      (∀ es, o.res = .ok es ↔ (m.run c (h.set d .dir)).2 = true ∧ (m.remove (m.run c (h.set d .dir)).1 d).2 = true ∧
        layerFromDir n m.accepts (some goPrefix) (some goOwner) m.zeroTime t (m.walk (m.run c (h.set d .dir)).1 d) = some (.ok es)) := by
  unfold layerFromGo at e
  rw [hd] at e
  refine ⟨goCmd m.environ d pkgs, ?_⟩
  simp only at e
  generalize hr : m.run (goCmd m.environ d pkgs) (h.set d .dir) = r at e
  obtain ⟨h1, b⟩ := r
  cases b with
  | false =>
    simp only at e
    cases e
    refine ⟨rfl, rfl, fun es => ⟨?_, ?_⟩⟩
    · intro x
      unfold finish at x
      simp only at x
      split at x <;> cases x
    · rintro ⟨x, _⟩; cases x
  | true =>
    simp only at e
    obtain ⟨r, hr', rfl⟩ := Option.map_eq_some_iff.mp e
    refine ⟨rfl, rfl, fun es => ⟨?_, ?_⟩⟩
    · intro x
      unfold finish at x
      simp only at x
      split at x
      · rename_i hrm
        subst x
        exact ⟨rfl, hrm, hr'⟩
      · cases x
    · rintro ⟨_, x, y⟩
      rw [hr'] at y
      cases y
      unfold finish
      simp only [x, if_true]

/-- **C101**, the temporary directory: whatever the command does, whether it fails or not, and whether the layer can be made
or not, nothing is left at or below the temporary directory, and the rest of the file system is as the command left it (if
`os.RemoveAll` succeeds; if it does not, there is an error). -/
theorem C101_removed {n : Nat} {m : GoMachine} {t : Int} {pkgs : List Str} {h : Host} {o : GoOut} {d : List Str}
    (hm : Spec.Removes m) (hd : m.tmp = some d) (e : layerFromGo n m t pkgs h = some o) :
    ∃ c, o.ran = [c] ∧
      ((∀ q, d <+: q → o.host q = none) ∧ (∀ q, ¬ d <+: q → o.host q = (m.run c (h.set d .dir)).1 q) ∨
       (m.remove (m.run c (h.set d .dir)).1 d).2 = false ∧ o.res = .error ()) := by
  obtain ⟨c, h1, h2, h3⟩ := layerFromGo_cases hd e
  refine ⟨c, h1, ?_⟩
  cases hr : (m.remove (m.run c (h.set d .dir)).1 d).2 with
  | true =>
    refine Or.inl ⟨fun q hq => ?_, fun q hq => ?_⟩
    · rw [h2, hm _ _ hr, if_pos hq]
    · rw [h2, hm _ _ hr, if_neg hq]
  | false =>
    refine Or.inr ⟨rfl, ?_⟩
    cases ho : o.res with
    | error u => rfl
    | ok es =>
      have := ((h3 es).mp ho).2.1
      rw [hr] at this; cases this

/-- … so if there was nothing there before, and the command writes only to the directory it was told to write to, the file
system is as it was -/
theorem C101_unchanged {n : Nat} {m : GoMachine} {t : Int} {pkgs : List Str} {h : Host} {o : GoOut} {d : List Str}
    (hm : Spec.Removes m) (hrm : ∀ h, (m.remove h d).2 = true) (hd : m.tmp = some d) (hfresh : ∀ q, d <+: q → h q = none)
    (hrun : ∀ c h q, ¬ d <+: q → (m.run c h).1 q = h q) (e : layerFromGo n m t pkgs h = some o) : o.host = h := by
  obtain ⟨c, _, h1 | h1⟩ := C101_removed hm hd e
  · funext q
    by_cases hq : d <+: q
    · rw [h1.1 q hq, hfresh q hq]
    · rw [h1.2 q hq, hrun _ _ _ hq]
      unfold Host.set
      rw [if_neg]
      rintro rfl
      exact hq (List.prefix_refl _)
  · rw [hrm] at h1; cases h1.1

/-! ### the layer -/

theorem goPrefix_plain : ∀ c ∈ ["usr".toList, "local".toList, "bin".toList], Plain c := by
  intro c hc
  simp only [List.mem_cons, List.not_mem_nil, or_false] at hc
  rcases hc with rfl | rfl | rfl <;> refine ⟨?_, ?_, ?_, ?_⟩ <;> decide

/-- **C101**, the layer: when the call succeeds, the command has succeeded, and the layer consists of the directories usr,
usr/local and usr/local/bin (mode 0755, owner and group root, modified at the clamping time) and one entry for each file that
the command left in the temporary directory, named usr/local/bin/FILE; the entry for the first name of a regular file has the
content of the file.  The name of the temporary directory is not in the names. -/
theorem C101_layer {n : Nat} {m : GoMachine} {t : Int} {pkgs : List Str} {h : Host} {o : GoOut} {es : List (Hdr × Bytes)}
    {d : List Str} (hw : Spec.Walks m) (hd : m.tmp = some d) (e : layerFromGo n m t pkgs h = some o) (he : o.res = .ok es) :
    ∃ c built, o.ran = [c] ∧ m.run c (h.set d .dir) = (built, true) ∧
      ∃ ps ts, es = ps ++ ts ∧ ps.map (·.1.name) = ["usr".toList, "usr/local".toList, "usr/local/bin".toList] ∧
        (∀ x ∈ ps, x.1.typeflag = '5' ∧ x.1.mode = 0o755 ∧ x.1.uid = 0 ∧ x.1.gid = 0 ∧ x.1.uname = "root".toList ∧
          x.1.gname = "root".toList ∧ x.1.modTime = t ∧ x.2 = []) ∧
        ts.map (·.1.name) = (Fsutil.Spec.tree (m.walk built d)).map (fun w => "usr/local/bin/".toList ++ w.rel) ∧
        ((∀ w ∈ m.walk built d, ∀ i, w.info = some i → i.typeflag ≠ '1') → ∀ i (hi : i < ts.length) (hj : i < (Fsutil.Spec.tree (m.walk built d)).length),
          ts[i].1.typeflag = typeReg → (Fsutil.Spec.tree (m.walk built d))[i].content = some ts[i].2) := by
  obtain ⟨c, h1, _, h3⟩ := layerFromGo_cases hd e
  obtain ⟨hr, _, hl⟩ := (h3 es).mp he
  refine ⟨c, (m.run c (h.set d .dir)).1, h1, Prod.ext rfl hr, ?_⟩
  obtain ⟨ps, ts, h4, h5, h6, h7⟩ := C59_prefix (cs := ["usr".toList, "local".toList, "bin".toList]) (by decide) (by simp)
    goPrefix_plain (fun w hw' => hw _ _ w (List.mem_filter.mp hw').1 (of_decide_eq_true (List.mem_filter.mp hw').2)) hl
  refine ⟨ps, ts, h4, h5.trans (by decide), ?_, h7, ?_⟩
  · intro x hx
    obtain ⟨a1, a2, a3, a4, a5, a6, a7, a8⟩ := h6 x hx
    exact ⟨a1, a2, a3, a4, a5, a6, a7, a8⟩
  · intro hinfo i hi hj hreg
    obtain ⟨ps', ts', g1, g2, hlen, g3⟩ := C61_hardlinks hinfo hl
    have hlt : ts.length = ts'.length := by
      have a := congrArg List.length h7
      simp only [List.length_map] at a
      omega
    have : ps = ps' ∧ ts = ts' := List.append_inj' (h4.symm.trans g1) hlt
    obtain ⟨rfl, rfl⟩ := this
    rcases g3 i hi with ⟨_, _, g⟩ | ⟨g, _⟩
    · exact g hreg
    · rw [g] at hreg; exact absurd hreg (by decide)

/-- **C101**, errors: the call succeeds exactly if the directory can be made, the command succeeds, the files it left can be
put in a layer, and the directory can be removed -/
theorem C101_succeeds_iff {n : Nat} {m : GoMachine} {t : Int} {pkgs : List Str} {h : Host} {o : GoOut}
    (e : layerFromGo n m t pkgs h = some o) :
    (∃ es, o.res = .ok es) ↔ ∃ d c built es, m.tmp = some d ∧ o.ran = [c] ∧ m.run c (h.set d .dir) = (built, true) ∧
      layerFromDir n m.accepts (some ⟨"usr/local/bin".toList, 0, ⟨0, "root".toList, 0, "root".toList⟩⟩)
        (some ⟨0, "root".toList, 0, "root".toList⟩) m.zeroTime t (m.walk built d) = some (.ok es) ∧
      (m.remove built d).2 = true := by
  cases hd : m.tmp with
  | none =>
    unfold layerFromGo at e
    rw [hd] at e
    cases e
    constructor
    · rintro ⟨es, h⟩; cases h
    · rintro ⟨d, _, _, _, h, _⟩; cases h
  | some d =>
    obtain ⟨c, h1, _, h3⟩ := layerFromGo_cases hd e
    constructor
    · rintro ⟨es, he⟩
      obtain ⟨a, b, x⟩ := (h3 es).mp he
      exact ⟨d, c, _, es, rfl, h1, Prod.ext rfl a, x, b⟩
    · rintro ⟨d', c', built, es, hd', hc, hrun, hl, hrm⟩
      cases hd'
      rw [h1] at hc
      cases hc
      refine ⟨es, (h3 es).mpr ?_⟩
      rw [hrun]
      exact ⟨rfl, hrm, hl⟩

/-- the call always returns -/
theorem C101_returns {n : Nat} (hn : 4 ≤ n) (m : GoMachine) (t : Int) (pkgs : List Str) (h : Host) :
    ∃ o, layerFromGo n m t pkgs h = some o := by
  have key : ∀ walk, ∃ r, layerFromDir n m.accepts (some goPrefix) (some goOwner) m.zeroTime t walk = some r := by
    intro walk
    have := prefixDirs_render (cs := ["usr".toList, "local".toList, "bin".toList]) ⟨0, _, by simp, goPrefix_plain, fun _ => rfl⟩
      (n := n) (by simp; omega)
    unfold layerFromDir prefixEntries
    simp only
    rw [show goPrefix.dirName = render false ["usr".toList, "local".toList, "bin".toList] by decide, this]
    exact ⟨_, rfl⟩
  unfold layerFromGo
  cases m.tmp with
  | none => exact ⟨_, rfl⟩
  | some d =>
    simp only
    split
    · exact ⟨_, rfl⟩
    · obtain ⟨r, hr⟩ := key (m.walk (by assumption) d)
      rw [hr]
      exact ⟨_, rfl⟩

end Gobuild
