import Verif.Squash.Model
/-! C70: reading a file of the loaded file system in pieces. -/
namespace Squash
open Go

/-- a sequence of Read calls, each with its buffer size -/
def reads : Reader → List Nat → Reader
  | r, [] => r
  | r, m :: ms => reads (r.read m).1 ms

/-- what a sequence of Read calls delivered, put together -/
def delivered : Reader → List Nat → Bytes
  | _, [] => []
  | r, m :: ms => (match (r.read m).2 with | .ok b => b | .error _ => []) ++ delivered (r.read m).1 ms

/-- a handle as `Open` returns it -/
def freshReader (nd : Node) : Reader := { tgt := nd, pos := 0, closed := false, dirents := none }

theorem read_eq {h : Header} {body : Bytes} (hd : h.typeflag ≠ typeDir) (hs : h.size ≤ body.length)
    {r : Reader} (ht : r.tgt = ⟨some h, body⟩) (hc : r.closed = false) (hp : r.pos ≤ body.length) (m : Nat) :
    r.read m = if r.pos = body.length then (r, .error .eof)
      else ({ r with pos := min (r.pos + m) body.length }, .ok ((body.drop r.pos).take m)) := by
  unfold Reader.read
  rw [ht]
  simp only
  rw [if_neg hd, if_neg (by omega), hc]
  simp only [Bool.false_eq_true, if_false]
  split
  · rfl
  · have : r.pos + ((body.drop r.pos).take m).length = min (r.pos + m) body.length := by
      rw [List.length_take, List.length_drop]; omega
    rw [this]

theorem reads_state {h : Header} {body : Bytes} (hd : h.typeflag ≠ typeDir) (hs : h.size ≤ body.length)
    (ms : List Nat) : ∀ (r : Reader), r.tgt = ⟨some h, body⟩ → r.closed = false → r.pos ≤ body.length →
      (reads r ms).tgt = ⟨some h, body⟩ ∧ (reads r ms).closed = false ∧
      (reads r ms).pos = min (r.pos + ms.sum) body.length := by
  induction ms with
  | nil => intro r ht hc hp; refine ⟨ht, hc, ?_⟩; simp only [reads, List.sum_nil]; omega
  | cons m ms ih =>
    intro r ht hc hp
    rw [reads, read_eq hd hs ht hc hp]
    split
    · rename_i he
      obtain ⟨a, b, c⟩ := ih r ht hc hp
      refine ⟨a, b, ?_⟩
      rw [c, List.sum_cons]; omega
    · obtain ⟨a, b, c⟩ := ih { r with pos := min (r.pos + m) body.length } ht hc (by simp only; omega)
      refine ⟨a, b, ?_⟩
      rw [c, List.sum_cons]; simp only; omega

theorem delivered_eq {h : Header} {body : Bytes} (hd : h.typeflag ≠ typeDir) (hs : h.size ≤ body.length)
    (ms : List Nat) : ∀ (r : Reader), r.tgt = ⟨some h, body⟩ → r.closed = false → r.pos ≤ body.length →
      delivered r ms = (body.drop r.pos).take ms.sum := by
  induction ms with
  | nil => intro r _ _ _; simp [delivered]
  | cons m ms ih =>
    intro r ht hc hp
    rw [delivered, read_eq hd hs ht hc hp]
    by_cases he : r.pos = body.length
    · rw [if_pos he]
      simp only [List.nil_append]
      rw [ih r ht hc hp, List.drop_eq_nil_of_le (by omega)]; simp
    · rw [if_neg he, ih { r with pos := min (r.pos + m) body.length } ht hc (by simp only; omega), List.sum_cons]
      by_cases hm : r.pos + m ≤ body.length
      · show _ ++ ((body.drop (min (r.pos + m) body.length)).take ms.sum) = _
        rw [Nat.min_eq_left hm, List.take_add, List.drop_drop]
      · show _ ++ ((body.drop (min (r.pos + m) body.length)).take ms.sum) = _
        rw [List.drop_eq_nil_of_le (as := body) (i := min (r.pos + m) body.length) (by omega), List.take_nil, List.append_nil,
          List.take_of_length_le (by rw [List.length_drop]; omega),
          List.take_of_length_le (by rw [List.length_drop]; omega)]

/-- C70, contents.  For a file that is not a directory and whose content is in memory: after any sequence of reads with
buffer sizes `ms`, what has been delivered is the first `ms.sum` bytes of the content, and the next read with buffer size
`m` returns the next `m` bytes (fewer at the end), or EOF exactly when everything has been delivered. -/
theorem C70_read (h : Header) (body : Bytes) (hd : h.typeflag ≠ '5') (hs : h.size ≤ body.length)
    (ms : List Nat) :
    delivered (freshReader ⟨some h, body⟩) ms = body.take ms.sum ∧
    ∀ m, ((reads (freshReader ⟨some h, body⟩) ms).read m).2 =
      if body.length ≤ ms.sum then .error .eof else .ok ((body.drop ms.sum).take m) := by
  refine ⟨by rw [delivered_eq hd hs ms _ rfl rfl (Nat.zero_le _)]; rfl, fun m => ?_⟩
  obtain ⟨a, b, c⟩ := reads_state hd hs ms (freshReader ⟨some h, body⟩) rfl rfl (Nat.zero_le _)
  have c' : (reads (freshReader ⟨some h, body⟩) ms).pos = min ms.sum body.length := by rw [c]; simp [freshReader]
  rw [read_eq hd hs a b (by omega), c']
  by_cases hl : body.length ≤ ms.sum
  · rw [if_pos hl, if_pos (by omega)]
  · rw [if_neg hl, if_neg (by omega), Nat.min_eq_left (a := ms.sum) (by omega)]

/-- The content is delivered in full by any sequence of reads that ends with EOF, and one with positive buffer sizes
always gets there. -/
theorem C70_whole (h : Header) (body : Bytes) (hd : h.typeflag ≠ '5') (hs : h.size ≤ body.length) (ms : List Nat) :
    (∀ m, ((reads (freshReader ⟨some h, body⟩) ms).read m).2 = .error .eof → delivered (freshReader ⟨some h, body⟩) ms = body) ∧
    ((∀ m ∈ ms, 0 < m) → body.length ≤ ms.length → ∀ m, ((reads (freshReader ⟨some h, body⟩) ms).read m).2 = .error .eof) := by
  obtain ⟨h1, h2⟩ := C70_read h body hd hs ms
  refine ⟨fun m hm => ?_, fun hp hl m => ?_⟩
  · rw [h2 m] at hm
    split at hm
    · rw [h1, List.take_of_length_le (by assumption)]
    · exact absurd hm (by simp)
  · rw [h2 m, if_pos]
    have : ms.length ≤ ms.sum := by
      clear h1 h2 hl
      induction ms with
      | nil => simp
      | cons a as ih =>
        have h1 := hp a (by simp)
        have h2 := ih (fun m hm => hp m (by simp [hm]))
        rw [List.length_cons, List.sum_cons]; omega
    omega

example : ∃ (h : Header) (body : Bytes), h.typeflag ≠ '5' ∧ h.size ≤ body.length ∧
    delivered (freshReader ⟨some h, body⟩) [2, 0, 2] = [1, 2, 3] :=
  ⟨{ name := "f".toList, typeflag := '0', linkname := [], size := 3, mode := 0o644, other := [] }, [1, 2, 3],
    by decide, by decide, by decide⟩

/-- When the content is not in memory (loaded with `omitContent`), reading never delivers anything: every Read fails. -/
theorem C70_missing (h : Header) (body : Bytes) (hs : (body.length : Int) < h.size) (r : Reader)
    (ht : r.tgt = ⟨some h, body⟩) (m : Nat) : ∃ e, e ≠ IOErr.eof ∧ r.read m = (r, .error e) := by
  unfold Reader.read
  rw [ht]
  simp only
  by_cases hd : h.typeflag = typeDir
  · rw [if_pos hd]; exact ⟨_, by simp, rfl⟩
  · rw [if_neg hd, if_pos hs]; exact ⟨_, by simp, rfl⟩

/-- the operations on an open handle -/
inductive Op where
  | read (size : Nat) | readDir (n : Int) | close

/-- run one operation; `true` when it succeeded -/
def runOp (sortSlice : (DirEnt → DirEnt → Bool) → List DirEnt → List DirEnt) (kids : List (Str × Option Str × Bool))
    (r : Reader) : Op → Reader × Bool
  | .read m => ((r.read m).1, match (r.read m).2 with | .ok _ => true | .error _ => false)
  | .readDir n => ((r.readDir sortSlice kids n).1, match (r.readDir sortSlice kids n).2 with | .ok _ => true | .error _ => false)
  | .close => (r.close.1, match r.close.2 with | .ok _ => true | .error _ => false)

def runOps (sortSlice : (DirEnt → DirEnt → Bool) → List DirEnt → List DirEnt) (kids : List (Str × Option Str × Bool)) :
    Reader → List Op → Reader
  | r, [] => r
  | r, o :: os => runOps sortSlice kids (runOp sortSlice kids r o).1 os

theorem runOp_closed {sortSlice : (DirEnt → DirEnt → Bool) → List DirEnt → List DirEnt}
    {kids : List (Str × Option Str × Bool)} {r : Reader} (hc : r.closed = true) (o : Op) :
    runOp sortSlice kids r o = (r, false) := by
  cases o with
  | read m =>
    have : ∃ e, r.read m = (r, .error e) := by
      unfold Reader.read
      split
      · exact ⟨_, rfl⟩
      · split
        · exact ⟨_, rfl⟩
        · split
          · exact ⟨_, rfl⟩
          · exact ⟨_, rfl⟩
    obtain ⟨e, he⟩ := this
    rw [runOp, he]
  | readDir n =>
    have : ∃ e, r.readDir sortSlice kids n = (r, .error e) := by
      unfold Reader.readDir
      cases r.tgt.nonDir <;> simp [hc]
    obtain ⟨e, he⟩ := this
    rw [runOp, he]
  | close =>
    have : r.close = (r, .error .closed) := by unfold Reader.close; rw [if_pos hc]
    rw [runOp, this]

/-- C70, closing: the first Close of a handle that is open succeeds whatever was done before, and after it every
operation fails, whatever else is done. -/
theorem C70_close (sortSlice : (DirEnt → DirEnt → Bool) → List DirEnt → List DirEnt)
    (kids : List (Str × Option Str × Bool)) (r : Reader) (os : List Op) (o : Op) :
    (runOp sortSlice kids (runOps sortSlice kids (runOp sortSlice kids r .close).1 os) o).2 = false ∧
    (r.closed = false → (runOp sortSlice kids r .close).2 = true) := by
  constructor
  · have hc : (runOp sortSlice kids r .close).1.closed = true := by
      simp only [runOp, Reader.close]
      split <;> simp_all
    revert hc
    generalize (runOp sortSlice kids r .close).1 = q
    intro hc
    have : runOps sortSlice kids q os = q := by
      induction os with
      | nil => rfl
      | cons o os ih => rw [runOps, runOp_closed hc]; exact ih
    rw [this, runOp_closed hc]
  · intro h
    simp [runOp, Reader.close, h]

example : (runOp insertionSort [] (runOps insertionSort [] (freshReader ⟨none, []⟩) [.readDir 1, .read 3]) .close).2 = true := by
  decide

end Squash
