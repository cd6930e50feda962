import Verif.Python.CmdAlias
/-! C134: one compiler used for several runs. -/
namespace Python.CmdAlias
open Go

namespace Spec

/-- the arguments a run is to give to the command: those of the command line, after them the options for its own directory -/
def args (cmdline : List Str) (tmpdir : Str) : List Str :=
  cmdline.tail ++ ["-s".toList, tmpdir, "-p".toList, "/".toList, tmpdir]

end Spec
open Spec

@[simp] theorem set_arr (s : State) (i : Nat) (p : Pc) : (s.set i p).arr = s.arr := rfl
@[simp] theorem set_pc_self (s : State) (i : Nat) (p : Pc) : (s.set i p).pc i = p := by simp [State.set]
theorem set_pc_ne (s : State) {i j : Nat} (p : Pc) (h : j ≠ i) : (s.set i p).pc j = s.pc j := by simp [State.set, h]

theorem step_ne {len : Nat} {tmpdir : Nat → Str} {s : State} {i j : Nat} (h : j ≠ i) : (step len tmpdir s i).pc j = s.pc j := by
  unfold step
  split
  · split <;> exact set_pc_ne _ _ h
  · split <;> exact set_pc_ne _ _ h
  · split <;> exact set_pc_ne _ _ h
  · split <;> exact set_pc_ne _ _ h
  · rfl

theorem run_snoc (len : Nat) (tmpdir : Nat → Str) (arr : List Str) (sched : List Nat) (i : Nat) :
    run len tmpdir arr (sched ++ [i]) = step len tmpdir (run len tmpdir arr sched) i := by
  unfold run; rw [List.foldl_append]; rfl

/-- where a run is after `c` steps of its own, if it makes a new array -/
def grown (cmd : List Str) (tmpdir : Str) (c : Nat) : Pc :=
  if c = 0 then .start else if c ≤ cmd.length then .growing (cmd.tail.take (c - 1)) else .ready (args cmd tmpdir)

theorem getD_tail {cmd spare : List Str} {k : Nat} (h : k < cmd.length - 1) :
    cmd.tail.take k ++ [(cmd ++ spare).getD (1 + k) []] = cmd.tail.take (k + 1) := by
  cases cmd with
  | nil => simp at h
  | cons a cmd =>
    simp only [List.length_cons, Nat.add_sub_cancel] at h
    rw [List.take_add_one]
    simp only [List.tail_cons, Nat.add_comm 1 k, List.cons_append, List.getD_cons_succ]
    rw [List.getElem?_eq_getElem h, List.getD_eq_getElem?_getD, List.getElem?_append_left h, List.getElem?_eq_getElem h]
    rfl

theorem grow_step {cmd spare : List Str} (hpos : 0 < cmd.length) (hs : spare.length < 5) {tmpdir : Nat → Str} {s : State} {j c : Nat}
    (h1 : s.arr = cmd ++ spare) (hj : s.pc j = grown cmd (tmpdir j) c) :
    (step cmd.length tmpdir s j).arr = cmd ++ spare ∧ (step cmd.length tmpdir s j).pc j = grown cmd (tmpdir j) (c + 1) := by
  unfold step
  rw [hj]
  unfold grown
  by_cases c0 : c = 0
  · have : ¬ (cmd.length + 5 ≤ s.arr.length) := by rw [h1]; simp; omega
    simp only [if_pos c0, extra, List.length_cons, List.length_nil, Nat.zero_add, if_neg this, set_arr, set_pc_self]
    rw [if_neg (by omega), if_pos (by omega)]
    simp [c0, h1]
  · by_cases c1 : c ≤ cmd.length
    · have hl : (cmd.tail.take (c - 1)).length = c - 1 := by rw [List.length_take, List.length_tail]; omega
      simp only [if_neg c0, if_pos c1, hl]
      by_cases c2 : c - 1 < cmd.length - 1
      · rw [if_pos c2, h1, set_arr, set_pc_self, getD_tail c2, if_neg (by omega), if_pos (by omega)]
        refine ⟨h1, ?_⟩
        congr 2; omega
      · rw [if_neg c2, set_arr, set_pc_self, if_neg (by omega), if_neg (by omega)]
        refine ⟨h1, ?_⟩
        have e : c - 1 = cmd.tail.length := by rw [List.length_tail]; omega
        rw [e, List.take_length]; rfl
    · simp only [if_neg c0, if_neg c1]
      refine ⟨h1, ?_⟩
      rw [hj]
      unfold grown
      rw [if_neg c0, if_neg c1, if_neg (by omega), if_neg (by omega)]

/-- C134, if the array of the command line has no room for five more strings: in every interleaving of any number of runs, each run
that is given enough steps calls the command with its own arguments, and nothing is written into the array. -/
theorem C134_private_partial (cmd spare : List Str) (hc : cmd ≠ []) (hs : spare.length < 5) (tmpdir : Nat → Str) (sched : List Nat) :
    (run cmd.length tmpdir (cmd ++ spare) sched).arr = cmd ++ spare ∧
    ∀ i, (∀ a, (run cmd.length tmpdir (cmd ++ spare) sched).pc i = .ready a → a = args cmd (tmpdir i)) ∧
      (cmd.length < sched.count i → (run cmd.length tmpdir (cmd ++ spare) sched).pc i = .ready (args cmd (tmpdir i))) := by
  have hpos : 0 < cmd.length := List.length_pos_iff.mpr hc
  have key : ∀ r : List Nat, (run cmd.length tmpdir (cmd ++ spare) r.reverse).arr = cmd ++ spare ∧
      ∀ i, (run cmd.length tmpdir (cmd ++ spare) r.reverse).pc i = grown cmd (tmpdir i) (r.count i) := by
    intro r
    induction r with
    | nil => exact ⟨rfl, fun i => rfl⟩
    | cons j r ih =>
      rw [List.reverse_cons, run_snoc]
      have hstep := grow_step hpos hs ih.1 (ih.2 j)
      refine ⟨hstep.1, fun i => ?_⟩
      by_cases hij : i = j
      · subst hij; rw [List.count_cons_self]; exact hstep.2
      · rw [List.count_cons_of_ne (fun e => hij e.symm), ← ih.2 i]; exact step_ne hij
  have := key sched.reverse
  rw [List.reverse_reverse] at this
  refine ⟨this.1, fun i => ?_⟩
  have h2 := this.2 i
  rw [List.count_reverse] at h2
  rw [h2]
  unfold grown
  constructor
  · intro a
    split
    · intro h; cases h
    · split
      · intro h; cases h
      · intro h; injection h with h; exact h.symm
  · intro h
    rw [if_neg (by omega), if_neg (by omega)]

/-! ### any room -/

/-- the array holds the new arguments of run `i` up to where the run is -/
def Mine (cmd : List Str) (tmpdir : Nat → Str) (s : State) (i : Nat) : Prop :=
  match s.pc i with
  | .start => True
  | .writing k => k ≤ 5 ∧ cmd.length + 5 ≤ s.arr.length ∧ s.arr.take (cmd.length + k) = cmd ++ (extra (tmpdir i)).take k
  | .growing acc => acc = cmd.tail.take acc.length
  | .copying acc => s.arr.take (cmd.length + 5) = cmd ++ extra (tmpdir i) ∧ acc = (args cmd (tmpdir i)).take acc.length
  | .ready a => a = args cmd (tmpdir i)

/-- the run has begun and has not yet copied its arguments -/
def Spec.busy (s : State) (i : Nat) : Prop := s.pc i ≠ .start ∧ ∀ a, s.pc i ≠ .ready a

theorem mine_idle {cmd : List Str} {tmpdir : Nat → Str} {s s' : State} {i : Nat} (h : Mine cmd tmpdir s i) (hb : ¬ busy s i)
    (hp : s'.pc i = s.pc i) : Mine cmd tmpdir s' i := by
  unfold Mine at h ⊢
  rw [hp]
  unfold busy at hb
  cases hpc : s.pc i with
  | start => trivial
  | ready a => rw [hpc] at h; exact h
  | writing k => rw [hpc] at hb; simp at hb
  | growing k => rw [hpc] at hb; simp at hb
  | copying k => rw [hpc] at hb; simp at hb

theorem take_getD {l p : List Str} {n k : Nat} (h : l.take n = p) (hk : k < p.length) : l.getD k [] = p.getD k [] := by
  subst h
  have : k < n := by rw [List.length_take] at hk; omega
  rw [List.getD_eq_getElem?_getD, List.getD_eq_getElem?_getD, List.getElem?_take, if_pos this]

theorem take_snoc_getD {l : List Str} {k : Nat} (h : k < l.length) : l.take k ++ [l.getD k []] = l.take (k + 1) := by
  rw [List.take_add_one, List.getD_eq_getElem?_getD, List.getElem?_eq_getElem h]; rfl

theorem step_mine {cmd : List Str} (hpos : 0 < cmd.length) {tmpdir : Nat → Str} {s : State} {i : Nat} (ha : s.arr.take cmd.length = cmd)
    (h : Mine cmd tmpdir s i) : Mine cmd tmpdir (step cmd.length tmpdir s i) i := by
  have hx : (extra (tmpdir i)).length = 5 := rfl
  have hlen : cmd.length ≤ s.arr.length := by
    have := congrArg List.length ha; rw [List.length_take] at this; omega
  have hargs : args cmd (tmpdir i) = (cmd ++ extra (tmpdir i)).tail := by
    cases cmd with
    | nil => simp at hpos
    | cons a c => rfl
  have hal : (args cmd (tmpdir i)).length = cmd.length - 1 + 5 := by rw [hargs, List.length_tail, List.length_append, hx]; omega
  unfold Mine at h
  unfold step
  cases hpc : s.pc i with
  | start =>
    simp only
    split
    · unfold Mine; rw [set_pc_self]; rename_i hr; rw [hx] at hr
      refine ⟨by omega, hr, ?_⟩
      simpa using ha
    · unfold Mine; rw [set_pc_self]; simp
  | writing k =>
    rw [hpc] at h
    simp only at h ⊢
    obtain ⟨h1, h2, h3⟩ := h
    split
    · rename_i x hk
      have hk5 : k < 5 := by rw [← hx]; exact (List.getElem?_eq_some_iff.mp hk).1
      unfold Mine; rw [set_pc_self]
      simp only [set_arr]
      refine ⟨by omega, by rw [List.length_set]; exact h2, ?_⟩
      rw [← Nat.add_assoc, List.take_add_one, List.take_set_of_le (by omega), h3, List.getElem?_set_self (by omega),
        List.take_add_one, hk, List.append_assoc]
    · rename_i hk
      have hk5 : k = 5 := by
        have := List.getElem?_eq_none_iff.mp hk; rw [hx] at this; omega
      unfold Mine; rw [set_pc_self]
      subst hk5
      refine ⟨?_, by simp⟩
      rw [set_arr, h3, List.take_of_length_le (by rw [hx]; omega)]
  | growing acc =>
    rw [hpc] at h
    simp only at h ⊢
    have hle : acc.length ≤ cmd.tail.length := by
      have := congrArg List.length h; rw [List.length_take] at this; omega
    rw [List.length_tail] at hle
    split
    · rename_i hk
      unfold Mine; rw [set_pc_self]
      simp only [List.length_append, List.length_singleton]
      have := getD_tail (spare := s.arr.drop cmd.length) hk
      have e : cmd ++ s.arr.drop cmd.length = s.arr := by
        have := List.take_append_drop cmd.length s.arr; rwa [ha] at this
      rw [e, ← h] at this
      exact this
    · rename_i hk
      unfold Mine; rw [set_pc_self]
      have e : acc.length = cmd.tail.length := by rw [List.length_tail]; omega
      rw [e, List.take_length] at h
      rw [h]; rfl
  | copying acc =>
    rw [hpc] at h
    simp only at h ⊢
    obtain ⟨h1, h2⟩ := h
    have hle : acc.length ≤ (args cmd (tmpdir i)).length := by
      have := congrArg List.length h2; rw [List.length_take] at this; omega
    rw [hx]
    split
    · rename_i hk
      unfold Mine; rw [set_pc_self]
      simp only [List.length_append, List.length_singleton, set_arr]
      refine ⟨h1, ?_⟩
      have e1 := take_getD (k := 1 + acc.length) h1 (by rw [List.length_append, hx]; omega)
      have e2 : (cmd ++ extra (tmpdir i)).getD (1 + acc.length) [] = (args cmd (tmpdir i)).getD acc.length [] := by
        rw [hargs]
        cases cmd with
        | nil => simp at hpos
        | cons a c => rw [Nat.add_comm]; rfl
      rw [e1, e2]
      conv => lhs; rw [h2]
      have := take_snoc_getD (l := args cmd (tmpdir i)) (k := acc.length) (by omega)
      rw [← h2] at this ⊢
      exact this
    · rename_i hk
      unfold Mine; rw [set_pc_self]
      simp only
      rw [h2, List.take_of_length_le]; omega
  | ready a =>
    unfold Mine
    simp only
    rw [hpc] at h ⊢; exact h

theorem step_caller {cmd : List Str} {tmpdir : Nat → Str} {s : State} {i : Nat} (ha : s.arr.take cmd.length = cmd) :
    (step cmd.length tmpdir s i).arr.take cmd.length = cmd ∧ (step cmd.length tmpdir s i).arr.length = s.arr.length := by
  unfold step
  split
  · split <;> exact ⟨ha, rfl⟩
  · split
    · simp only [set_arr, List.length_set, and_true]
      rw [List.take_set_of_le (by omega)]; exact ha
    · exact ⟨ha, rfl⟩
  · split <;> exact ⟨ha, rfl⟩
  · split <;> exact ⟨ha, rfl⟩
  · exact ⟨ha, rfl⟩

/-- C134: in every interleaving the caller's command line keeps its elements. -/
theorem C134_caller (cmd spare : List Str) (tmpdir : Nat → Str) (sched : List Nat) :
    (run cmd.length tmpdir (cmd ++ spare) sched).arr.take cmd.length = cmd ∧
      (run cmd.length tmpdir (cmd ++ spare) sched).arr.length = cmd.length + spare.length := by
  have key : ∀ r : List Nat, (run cmd.length tmpdir (cmd ++ spare) r.reverse).arr.take cmd.length = cmd ∧
      (run cmd.length tmpdir (cmd ++ spare) r.reverse).arr.length = cmd.length + spare.length := by
    intro r
    induction r with
    | nil => simp [run]
    | cons j r ih =>
      rw [List.reverse_cons, run_snoc]
      have := step_caller (tmpdir := tmpdir) (i := j) ih.1
      exact ⟨this.1, this.2.trans ih.2⟩
  simpa using key sched.reverse

/-- C134, whatever the room: if no run begins while another one is busy, each run calls the command with its own arguments. -/
theorem C134_exclusive_partial (cmd spare : List Str) (hc : cmd ≠ []) (tmpdir : Nat → Str) (sched : List Nat)
    (hx : ∀ p, p <+: sched → ∀ i j, busy (run cmd.length tmpdir (cmd ++ spare) p) i → busy (run cmd.length tmpdir (cmd ++ spare) p) j → i = j)
    (i : Nat) (a : List Str) (h : (run cmd.length tmpdir (cmd ++ spare) sched).pc i = .ready a) : a = args cmd (tmpdir i) := by
  have hpos : 0 < cmd.length := List.length_pos_iff.mpr hc
  have key : ∀ (r : List Nat), r.reverse <+: sched → ∀ i, Mine cmd tmpdir (run cmd.length tmpdir (cmd ++ spare) r.reverse) i := by
    intro r
    induction r with
    | nil => intro _ i; trivial
    | cons j r ih =>
      intro hp i
      have hp' : r.reverse <+: sched := List.IsPrefix.trans (by rw [List.reverse_cons]; exact List.prefix_append _ _) hp
      have ih := ih hp'
      have hex := hx _ hp'
      have hex' := hx _ hp
      rw [List.reverse_cons, run_snoc] at hex' ⊢
      have hcall := (C134_caller cmd spare tmpdir r.reverse).1
      generalize run cmd.length tmpdir (cmd ++ spare) r.reverse = s at *
      by_cases hij : i = j
      · subst hij; exact step_mine hpos hcall (ih i)
      · have hpc : (step cmd.length tmpdir s j).pc i = s.pc i := step_ne hij
        by_cases hb : busy s i
        · -- run j is not busy, so its step does not write
          have hnj : ¬ busy s j := fun h => hij (hex i j hb h)
          have hb' : busy (step cmd.length tmpdir s j) i := by unfold busy at hb ⊢; rw [hpc]; exact hb
          have hnj' : ¬ busy (step cmd.length tmpdir s j) j := fun h => hij (hex' i j hb' h)
          have hsame : step cmd.length tmpdir s j = s := by
            cases e : s.pc j with
            | ready a => unfold step; rw [e]
            | start =>
              exfalso; apply hnj'
              unfold step busy
              rw [e]
              simp only
              split <;> simp
            | writing k => exact absurd ⟨by rw [e]; simp, by rw [e]; simp⟩ hnj
            | growing k => exact absurd ⟨by rw [e]; simp, by rw [e]; simp⟩ hnj
            | copying k => exact absurd ⟨by rw [e]; simp, by rw [e]; simp⟩ hnj
          rw [hsame]; exact ih i
        · exact mine_idle (ih i) hb hpc
  have := key sched.reverse (by simp) i
  rw [List.reverse_reverse] at this
  unfold Mine at this
  rw [h] at this
  exact this

/-! ### progress -/

/-- how many steps a run still needs at most -/
def rank (len : Nat) : Pc → Nat
  | .start => len + 13
  | .writing k => (5 - k) + 1 + (len + 6)
  | .growing acc => (len - acc.length) + 1
  | .copying acc => (len - 1 + 5 - acc.length) + 1
  | .ready _ => 0

theorem rank_step {len : Nat} {tmpdir : Nat → Str} {s : State} {i : Nat} (hk : ∀ k, s.pc i = .writing k → k ≤ 5) :
    rank len ((step len tmpdir s i).pc i) ≤ rank len (s.pc i) - 1 ∧ ∀ k, (step len tmpdir s i).pc i = .writing k → k ≤ 5 := by
  have hx : (extra (tmpdir i)).length = 5 := rfl
  unfold step
  cases hpc : s.pc i with
  | start =>
    simp only
    split
    · rw [set_pc_self]; refine ⟨by simp only [rank]; omega, ?_⟩
      intro k h; injection h with h; omega
    · rw [set_pc_self]; refine ⟨by simp only [rank, List.length_nil]; omega, ?_⟩
      intro k h; cases h
  | writing k =>
    have h5 := hk k hpc
    simp only
    split
    · rename_i x hg
      have := (List.getElem?_eq_some_iff.mp hg).1
      rw [hx] at this
      rw [set_pc_self]; refine ⟨by simp only [rank]; omega, ?_⟩
      intro k h; injection h with h; omega
    · rename_i hg
      have := List.getElem?_eq_none_iff.mp hg
      rw [hx] at this
      rw [set_pc_self]; refine ⟨by simp only [rank, List.length_nil]; omega, ?_⟩
      intro k h; cases h
  | growing acc =>
    simp only
    split
    · rw [set_pc_self]; refine ⟨by simp only [rank, List.length_append, List.length_singleton]; omega, ?_⟩
      intro k h; cases h
    · rw [set_pc_self]; refine ⟨by simp only [rank]; omega, ?_⟩
      intro k h; cases h
  | copying acc =>
    simp only
    split
    · rename_i hl
      rw [hx] at hl
      rw [set_pc_self]; refine ⟨by simp only [rank, List.length_append, List.length_singleton]; omega, ?_⟩
      intro k h; cases h
    · rw [set_pc_self]; refine ⟨by simp only [rank]; omega, ?_⟩
      intro k h; cases h
  | ready a => simp only; rw [hpc]; exact ⟨by simp [rank], by intro k h; cases h⟩

theorem rank_run (len : Nat) (tmpdir : Nat → Str) (arr : List Str) (i : Nat) (sched : List Nat) :
    rank len ((run len tmpdir arr sched).pc i) ≤ len + 13 - sched.count i ∧ ∀ k, (run len tmpdir arr sched).pc i = .writing k → k ≤ 5 := by
  have key : ∀ r : List Nat, rank len ((run len tmpdir arr r.reverse).pc i) ≤ len + 13 - r.count i ∧
      ∀ k, (run len tmpdir arr r.reverse).pc i = .writing k → k ≤ 5 := by
    intro r
    induction r with
    | nil => exact ⟨Nat.le_refl _, by intro k h; cases h⟩
    | cons j r ih =>
      rw [List.reverse_cons, run_snoc]
      by_cases hij : i = j
      · subst hij
        have := rank_step (len := len) (tmpdir := tmpdir) ih.2
        rw [List.count_cons_self]
        exact ⟨by omega, this.2⟩
      · rw [step_ne hij, List.count_cons_of_ne (fun e => hij e.symm)]; exact ih
  have := key sched.reverse
  rwa [List.reverse_reverse, List.count_reverse] at this

theorem rank_zero {len : Nat} {p : Pc} (h : rank len p = 0) : ∃ a, p = .ready a := by
  cases p <;> simp [rank] at h ⊢

theorem ready_of_count {len : Nat} {tmpdir : Nat → Str} {arr : List Str} {i : Nat} {sched : List Nat} (h : len + 13 ≤ sched.count i) :
    ∃ a, (run len tmpdir arr sched).pc i = .ready a :=
  rank_zero (len := len) (by have := (rank_run len tmpdir arr i sched).1; omega)

theorem start_of_count {len : Nat} {tmpdir : Nat → Str} {arr : List Str} {i : Nat} {sched : List Nat} (h : sched.count i = 0) :
    (run len tmpdir arr sched).pc i = .start := by
  have key : ∀ r : List Nat, r.count i = 0 → (run len tmpdir arr r.reverse).pc i = .start := by
    intro r
    induction r with
    | nil => intro _; rfl
    | cons j r ih =>
      intro h
      have hij : i ≠ j := by rintro rfl; rw [List.count_cons_self] at h; omega
      rw [List.count_cons_of_ne (fun e => hij e.symm)] at h
      rw [List.reverse_cons, run_snoc, step_ne hij]; exact ih h
  have := key sched.reverse (by rw [List.count_reverse]; exact h)
  rwa [List.reverse_reverse] at this

theorem prefix_blocks {N : Nat} : ∀ (ids p : List Nat), ids.Nodup → p <+: ids.flatMap (fun i => List.replicate N i) →
    ∃ x, ∀ j, j ≠ x → p.count j = 0 ∨ p.count j = N := by
  intro ids
  induction ids with
  | nil => intro p _ h; rw [List.flatMap_nil, List.prefix_nil] at h; exact ⟨0, fun j _ => .inl (by rw [h]; rfl)⟩
  | cons i ids ih =>
    intro p hd h
    rw [List.nodup_cons] at hd
    rw [List.flatMap_cons] at h
    have hpre : p <+: List.replicate N i ∨ ∃ q, p = List.replicate N i ++ q ∧ q <+: ids.flatMap (fun i => List.replicate N i) := by
      obtain ⟨t, ht⟩ := h
      rcases List.append_eq_append_iff.mp ht with ⟨a', h1, _⟩ | ⟨c', h1, h2⟩
      · exact .inl ⟨a', h1.symm⟩
      · exact .inr ⟨c', h1, ⟨t, h2.symm⟩⟩
    rcases hpre with h | ⟨q, rfl, h'⟩
    · refine ⟨i, fun j hj => .inl ?_⟩
      rw [List.count_eq_zero]
      intro hm
      exact hj (List.mem_replicate.mp (h.subset hm)).2
    · obtain ⟨x, hx⟩ := ih q hd.2 h'
      have hqi : q.count i = 0 := by
        rw [List.count_eq_zero]
        intro hm
        have := h'.subset hm
        rw [List.mem_flatMap] at this
        obtain ⟨y, h1, h2⟩ := this
        exact hd.1 ((List.mem_replicate.mp h2).2 ▸ h1)
      refine ⟨x, fun j hj => ?_⟩
      rw [List.count_append]
      by_cases hji : j = i
      · subst hji; rw [hqi, List.count_replicate_self]; exact .inr rfl
      · rw [List.count_replicate, if_neg (by simpa using fun e => hji e.symm), Nat.zero_add]; exact hx j hj

/-- C134, whatever the room: runs one after the other, each with enough steps to the end, call the command with their own
arguments. -/
theorem C134_sequential_partial (cmd spare : List Str) (hc : cmd ≠ []) (tmpdir : Nat → Str) (ids : List Nat) (hd : ids.Nodup)
    (N : Nat) (hN : cmd.length + 13 ≤ N) (i : Nat) (hi : i ∈ ids) :
    (run cmd.length tmpdir (cmd ++ spare) (ids.flatMap (fun i => List.replicate N i))).pc i = .ready (args cmd (tmpdir i)) := by
  obtain ⟨a, h⟩ : ∃ a, (run cmd.length tmpdir (cmd ++ spare) (ids.flatMap (fun i => List.replicate N i))).pc i = .ready a := by
    refine ready_of_count (Nat.le_trans hN ?_)
    obtain ⟨A, B, rfl⟩ := List.append_of_mem hi
    rw [List.flatMap_append, List.count_append, List.flatMap_cons, List.count_append, List.count_replicate_self]
    omega
  rw [h, C134_exclusive_partial cmd spare hc tmpdir _ ?_ i a h]
  intro p hp
  obtain ⟨x, hx⟩ := prefix_blocks ids p hd hp
  have key : ∀ j, busy (run cmd.length tmpdir (cmd ++ spare) p) j → j = x := by
    intro j hb
    refine Classical.byContradiction fun hne => ?_
    rcases hx j hne with h0 | h0
    · exact hb.1 (start_of_count h0)
    · obtain ⟨a, h1⟩ := ready_of_count (tmpdir := tmpdir) (arr := cmd ++ spare) (len := cmd.length) (by rw [h0]; exact hN)
      exact hb.2 a h1
  intro j k hj hk
  rw [key j hj, key k hk]

/-! ### the violation -/

theorem steps_writing {len : Nat} {tmpdir : Nat → Str} {i : Nat} : ∀ (m k : Nat) (s : State), s.pc i = .writing k → k + m ≤ 5 →
    ((List.replicate m i).foldl (step len tmpdir) s).pc i = .writing (k + m) := by
  intro m
  induction m with
  | zero => intro k s h _; exact h
  | succ m ih =>
    intro k s h hk
    rw [List.replicate_succ, List.foldl_cons]
    have : (step len tmpdir s i).pc i = .writing (k + 1) := by
      unfold step
      rw [h]
      simp only
      have hk' : k < (extra (tmpdir i)).length := by simp [extra]; omega
      rw [List.getElem?_eq_getElem hk']
      simp
    rw [ih (k + 1) _ this (by omega)]
    congr 1; omega

theorem steps_ne {len : Nat} {tmpdir : Nat → Str} {i j : Nat} (h : j ≠ i) : ∀ (m : Nat) (s : State),
    ((List.replicate m i).foldl (step len tmpdir) s).pc j = s.pc j := by
  intro m
  induction m with
  | zero => intro s; rfl
  | succ m ih => intro s; rw [List.replicate_succ, List.foldl_cons, ih, step_ne h]

theorem steps_mine {cmd : List Str} (hpos : 0 < cmd.length) {tmpdir : Nat → Str} {i : Nat} : ∀ (m : Nat) (s : State),
    s.arr.take cmd.length = cmd → Mine cmd tmpdir s i →
    ((List.replicate m i).foldl (step cmd.length tmpdir) s).arr.take cmd.length = cmd ∧
      Mine cmd tmpdir ((List.replicate m i).foldl (step cmd.length tmpdir) s) i := by
  intro m
  induction m with
  | zero => intro s h1 h2; exact ⟨h1, h2⟩
  | succ m ih =>
    intro s h1 h2
    rw [List.replicate_succ, List.foldl_cons]
    exact ih _ (step_caller h1).1 (step_mine hpos h1 h2)

/-- reading does not depend on the directory -/
theorem steps_copying {len : Nat} {d d' : Nat → Str} {i : Nat} : ∀ (m : Nat) (s : State),
    ((∃ acc, s.pc i = .copying acc) ∨ ∃ a, s.pc i = .ready a) →
    (List.replicate m i).foldl (step len d) s = (List.replicate m i).foldl (step len d') s := by
  intro m
  induction m with
  | zero => intro s _; rfl
  | succ m ih =>
    intro s h
    rw [List.replicate_succ, List.foldl_cons, List.foldl_cons]
    have hs : step len d s i = step len d' s i := by
      rcases h with ⟨acc, h⟩ | ⟨a, h⟩
      · unfold step; rw [h]; rfl
      · unfold step; rw [h]
    rw [← hs]
    refine ih _ ?_
    rcases h with ⟨acc, h⟩ | ⟨a, h⟩
    · unfold step; rw [h]
      simp only
      split
      · exact .inl ⟨_, set_pc_self _ _ _⟩
      · exact .inr ⟨_, set_pc_self _ _ _⟩
    · unfold step; rw [h]; exact .inr ⟨a, h⟩

theorem step_start {len : Nat} {tmpdir : Nat → Str} {s : State} {i : Nat} (h : s.pc i = .start) (hr : len + 5 ≤ s.arr.length) :
    (step len tmpdir s i).pc i = .writing 0 ∧ (step len tmpdir s i).arr = s.arr := by
  have : len + (extra (tmpdir i)).length ≤ s.arr.length := hr
  unfold step
  rw [h]
  simp only [if_pos this, set_pc_self, set_arr, and_self]

/-- six steps of a run that begins: it has written all its arguments -/
theorem six_steps {cmd : List Str} (hpos : 0 < cmd.length) {tmpdir : Nat → Str} {s : State} {i : Nat} (h : s.pc i = .start)
    (ha : s.arr.take cmd.length = cmd) (hr : cmd.length + 5 ≤ s.arr.length) :
    ((List.replicate 6 i).foldl (step cmd.length tmpdir) s).pc i = .writing 5 ∧
    ((List.replicate 6 i).foldl (step cmd.length tmpdir) s).arr.take (cmd.length + 5) = cmd ++ extra (tmpdir i) ∧
    ((List.replicate 6 i).foldl (step cmd.length tmpdir) s).arr.take cmd.length = cmd ∧
    cmd.length + 5 ≤ ((List.replicate 6 i).foldl (step cmd.length tmpdir) s).arr.length := by
  have hm : Mine cmd tmpdir s i := by unfold Mine; rw [h]; trivial
  have h6 := steps_mine hpos (tmpdir := tmpdir) 6 s ha hm
  have hw : ((List.replicate 6 i).foldl (step cmd.length tmpdir) s).pc i = .writing 5 := by
    rw [List.replicate_succ, List.foldl_cons, steps_writing 5 0 _ (step_start h hr).1 (by omega)]
  refine ⟨hw, ?_, h6.1, ?_⟩
  · have := h6.2
    unfold Mine at this
    rw [hw] at this
    exact this.2.2
  · have := h6.2
    unfold Mine at this
    rw [hw] at this
    exact this.2.1

/-- The code violates C134: with every command line that has room for five more strings there is an interleaving of two runs in which
the first one's command gets the second one's arguments, so that it compiles the second one's directory.  Also the caller's array
has then been written to. -/
theorem C134_violated (cmd spare : List Str) (hc : cmd ≠ []) (hs : 5 ≤ spare.length) (tmpdir : Nat → Str) :
    ∃ sched, (run cmd.length tmpdir (cmd ++ spare) sched).pc 0 = .ready (args cmd (tmpdir 1)) ∧
      (run cmd.length tmpdir (cmd ++ spare) sched).arr.take (cmd.length + 5) = cmd ++ args [] (tmpdir 1) := by
  have hpos : 0 < cmd.length := List.length_pos_iff.mpr hc
  refine ⟨List.replicate 6 0 ++ List.replicate 6 1 ++ List.replicate (cmd.length + 7) 0, ?_⟩
  unfold run
  rw [List.foldl_append, List.foldl_append]
  obtain ⟨a1, _, a3, a4⟩ := six_steps hpos (tmpdir := tmpdir) (s := ⟨cmd ++ spare, fun _ => .start⟩) (i := 0) rfl (by simp) (by simp; omega)
  have a5 := steps_ne (len := cmd.length) (tmpdir := tmpdir) (i := 0) (j := 1) (by decide) 6 ⟨cmd ++ spare, fun _ => .start⟩
  generalize (List.replicate 6 0).foldl (step cmd.length tmpdir) ⟨cmd ++ spare, fun _ => .start⟩ = s1 at *
  obtain ⟨b1, b2, b3, b4⟩ := six_steps hpos (tmpdir := tmpdir) (s := s1) (i := 1) a5 a3 a4
  have b5 := steps_ne (len := cmd.length) (tmpdir := tmpdir) (i := 1) (j := 0) (by decide) 6 s1
  generalize (List.replicate 6 1).foldl (step cmd.length tmpdir) s1 = s2 at *
  rw [a1] at b5
  rw [List.replicate_succ, List.foldl_cons]
  have c1 : step cmd.length tmpdir s2 0 = s2.set 0 (.copying []) := by unfold step; rw [b5]; rfl
  rw [c1]
  have c2 : (s2.set 0 (.copying [])).pc 0 = .copying [] := set_pc_self _ _ _
  have c3 : (s2.set 0 (.copying [])).arr = s2.arr := rfl
  generalize s2.set 0 (.copying []) = s3 at *
  have c4 := steps_copying (len := cmd.length) (d := tmpdir) (d' := fun _ => tmpdir 1) (cmd.length + 6) s3 (.inl ⟨[], c2⟩)
  rw [c4]
  have hm : Mine cmd (fun _ => tmpdir 1) s3 0 := by
    unfold Mine; rw [c2]
    exact ⟨by rw [c3]; exact b2, by simp⟩
  have d1 := (steps_mine hpos (tmpdir := fun _ => tmpdir 1) (i := 0) (cmd.length + 6) s3 (by rw [c3]; exact b3) hm).2
  have hrk : ∀ (m : Nat) (s : State), (∀ k, s.pc 0 = .writing k → k ≤ 5) →
      rank cmd.length (((List.replicate m 0).foldl (step cmd.length (fun _ => tmpdir 1)) s).pc 0) ≤ rank cmd.length (s.pc 0) - m := by
    intro m
    induction m with
    | zero => intro s _; exact Nat.le_refl _
    | succ m ih =>
      intro s h
      rw [List.replicate_succ, List.foldl_cons]
      have h1 := rank_step (len := cmd.length) (tmpdir := fun _ => tmpdir 1) h
      have h2 := ih _ h1.2
      omega
  have d2 := hrk (cmd.length + 6) s3 (by intro k h; rw [c2] at h; cases h)
  rw [c2] at d2
  have d0 : rank cmd.length (.copying []) ≤ cmd.length + 6 := by simp only [rank, List.length_nil]; omega
  obtain ⟨a, d3⟩ := rank_zero (len := cmd.length) (p := ((List.replicate (cmd.length + 6) 0).foldl (step cmd.length (fun _ => tmpdir 1)) s3).pc 0) (by omega)
  have harr : ∀ (m : Nat) (s : State), ((∃ acc, s.pc 0 = .copying acc) ∨ ∃ a, s.pc 0 = .ready a) →
      ((List.replicate m 0).foldl (step cmd.length (fun _ => tmpdir 1)) s).arr = s.arr := by
    intro m
    induction m with
    | zero => intro s _; rfl
    | succ m ih =>
      intro s h
      rw [List.replicate_succ, List.foldl_cons]
      rcases h with ⟨acc, h⟩ | ⟨a, h⟩
      · have e : step cmd.length (fun _ => tmpdir 1) s 0 = s.set 0 (if acc.length < cmd.length - 1 + (extra (tmpdir 1)).length then
            .copying (acc ++ [s.arr.getD (1 + acc.length) []]) else .ready acc) := by
          unfold step; rw [h]; simp only; split <;> rfl
        rw [e, ih _ ?_]
        · rfl
        · rw [set_pc_self]; split
          · exact .inl ⟨_, rfl⟩
          · exact .inr ⟨_, rfl⟩
      · have e : step cmd.length (fun _ => tmpdir 1) s 0 = s := by unfold step; rw [h]
        rw [e]; exact ih s (.inr ⟨a, h⟩)
  constructor
  · unfold Mine at d1
    rw [d3] at d1 ⊢
    simp only at d1
    rw [d1]
  · rw [harr _ _ (.inl ⟨[], c2⟩), c3, b2]; rfl

/-! ### cases -/

/-- `ExternalCompiler("python3", "-m", "compileall")`, the documented use: no room at all -/
def exCmd : List Str := ["python3".toList, "-m".toList, "compileall".toList]

def exDirs (i : Nat) : Str := if i = 0 then "/tmp/A".toList else "/tmp/B".toList

example : (run 3 exDirs exCmd [0, 1, 1, 0, 0, 1, 0, 1, 1, 0]).pc 0 =
    .ready ["-m".toList, "compileall".toList, "-s".toList, "/tmp/A".toList, "-p".toList, "/".toList, "/tmp/A".toList] := by decide +kernel

example : (run 3 exDirs (exCmd ++ List.replicate 5 []) (List.replicate 6 0 ++ List.replicate 6 1 ++ List.replicate 10 0)).pc 0 =
    .ready ["-m".toList, "compileall".toList, "-s".toList, "/tmp/B".toList, "-p".toList, "/".toList, "/tmp/B".toList] := by decide +kernel

example : args exCmd (exDirs 1) ≠ args exCmd (exDirs 0) := by decide +kernel

example := C134_sequential_partial exCmd (List.replicate 7 []) (by decide) exDirs [0, 1, 2] (by decide) 16 (by decide) 1 (by decide)

end Python.CmdAlias
