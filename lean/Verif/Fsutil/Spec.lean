import Verif.Fsutil.Model
/-! Specification used by the theorems about layers made from files, and about layer comparison. -/
namespace Fsutil.Spec
open Go

/-- `n` lies below the directory `d` -/
def Below (n d : Str) : Prop := ∃ x, n = d ++ '/' :: x

/-- the header with every time not later than `clamp`, everything else unchanged -/
def clamped (clamp : Int) (h : Hdr) : Hdr :=
  { h with modTime := min h.modTime clamp, accessTime := min h.accessTime clamp, changeTime := min h.changeTime clamp }

/-- all the bytes a reader delivers -/
def data (r : Rd) : Bytes := r.chunks.flatten

/-- header without its timestamps -/
def timeless (h : Hdr) : Hdr := { h with modTime := 0, accessTime := 0, changeTime := 0 }

/-- the layers have the same entries, in the same order, with the same contents and the same headers but for the
timestamps -/
def SameButTimes (a b : Arch) : Prop :=
  a.entries.map (fun e => (timeless e.1, data e.2)) = b.entries.map (fun e => (timeless e.1, data e.2))

instance (a b : Arch) : Decidable (SameButTimes a b) := inferInstanceAs (Decidable (_ = _))

/-- the archive can be read to its end -/
def Intact (a : Arch) : Prop := a.tail = .eof ∧ ∀ e ∈ a.entries, e.2.fin = .eof

/-- `n` steps suffice to read each entry -/
def Enough (n : Nat) (a : Arch) : Prop := ∀ e ∈ a.entries, (data e.2).length < n

end Fsutil.Spec
