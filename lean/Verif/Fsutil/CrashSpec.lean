import Verif.Fsutil.Crash
/-! Specification for interrupted runs of `layer gobuild --output`. -/
namespace Fsutil.Crash.Spec
open Go Fsutil.Crash

/-- the headers can be written in one block each, and are read back; each content has the size its header says -/
def Fits (cd : Codec) (es : List (Hdr × Bytes)) : Prop := ∀ e ∈ es,
  (cd.enc e.1).length = 512 ∧ cd.enc e.1 ≠ zeros 512 ∧ cd.dec (cd.enc e.1) = some e.1 ∧ e.2.length = dataSize e.1 ∧
  (headerOnly e.1.typeflag = true ∨ 0 ≤ e.1.size)

/-- the room that an entry takes: a header, the content, and padding up to a multiple of 512 -/
def room (e : Hdr × Bytes) : Nat := 512 + e.2.length + padding e.2.length

/-- where the entry with number `i` begins, or, after the last one, the end of the archive -/
def start (es : List (Hdr × Bytes)) (i : Nat) : Nat := ((es.take i).map room).sum

/-- the first `k` bytes end within a header, or within one of the two blocks that end the archive -/
def Inside (es : List (Hdr × Bytes)) (k : Nat) : Prop :=
  (∃ i, i ≤ es.length ∧ start es i < k ∧ k < start es i + 512) ∨
  (start es es.length + 512 < k ∧ k < start es es.length + 1024)

/-- the first `k` bytes hold the contents of all entries -/
def Whole (es : List (Hdr × Bytes)) (k : Nat) : Prop :=
  ∀ i e, es[i]? = some e → start es i + 512 + e.2.length ≤ k

/-- the same programs: the entries are the same but for their times -/
def Same (xs ys : List (Hdr × Bytes)) : Prop :=
  xs.map (fun e => (Fsutil.Spec.timeless e.1, e.2)) = ys.map (fun e => (Fsutil.Spec.timeless e.1, e.2))

end Fsutil.Crash.Spec
