import Verif.Pep440.Generate
import Verif.Pep440.PropsOrder
/-! C120: what random versions there are. -/
namespace Pep440
open Go

/-! ### specification -/

/-- a number that may be drawn for a part of a version -/
def Spec.Part (n : Int) : Prop := 0 ≤ n ∧ n < 3000

/-- a segment that may be drawn for a local version label -/
def Spec.DrawnSeg : Seg → Prop
  | .int n => Part n
  | .str s => s.length ≤ 10 ∧ ∃ c cs, s = c :: cs ∧ c ∈ "abcdefghijklmnopqrstuvwxyz".toList ∧ ∀ x ∈ cs, x ∈ "abcdefghijklmnopqrstuvwxyz0123456789".toList

/-- the part of a version before the local label that may be drawn -/
structure Spec.DrawnPub (v : PubVer) : Prop where
  epoch : Part v.epoch
  release : v.release ≠ [] ∧ v.release.length ≤ 10 ∧ ∀ n ∈ v.release, Part n
  pre : ∀ l n, v.pre = some (l, n) → l ∈ ["a".toList, "b".toList, "rc".toList] ∧ Part n
  post : ∀ n, v.post = some n → Part n
  dev : ∀ n, v.dev = some n → Part n

/-- a version that may be drawn -/
structure Spec.Drawn (v : Ver) : Prop where
  pub : DrawnPub v.toPubVer
  loc : v.loc.length ≤ 10 ∧ ∀ s ∈ v.loc, DrawnSeg s

/-- how much of the size the segments of a label take -/
def Spec.weight : List Seg → Nat
  | [] => 0
  | .int _ :: l => 1 + weight l
  | .str s :: l => 1 + s.length + weight l

/-! ### the draws -/

theorem intn_some {n : Int} (h : 0 < n) (r : Rand) : ∃ i r', intn n r = some (i, r') ∧ 0 ≤ i ∧ i < n := by
  refine ⟨_, _, by unfold intn; rw [if_neg (by omega)], Int.emod_nonneg _ (by omega), Int.emod_lt_of_pos _ h⟩

theorem intn_draw {n i : Int} (h0 : 0 ≤ i) (h : i < n) (r : Rand) : intn n (i.toNat :: r) = some (i, r) := by
  unfold intn
  rw [if_neg (by omega)]
  simp only [List.headD_cons, List.tail_cons]
  rw [Int.toNat_of_nonneg h0, Int.emod_eq_of_lt h0 h]

theorem bool_some (r : Rand) : ∃ b r', randBool r = some (b, r') := by
  obtain ⟨i, r', h, _⟩ := intn_some (n := 2) (by omega) r
  exact ⟨_, _, by unfold randBool; rw [h]; rfl⟩

theorem bool_draw (b : Bool) (r : Rand) : randBool ((if b then 1 else 0) :: r) = some (b, r) := by
  unfold randBool
  cases b with
  | true => rw [show ((if true then 1 else 0 : Nat)) = (1 : Int).toNat by rfl, intn_draw (by omega) (by omega)]; rfl
  | false => rw [show ((if false then 1 else 0 : Nat)) = (0 : Int).toNat by rfl, intn_draw (by omega) (by omega)]; rfl

theorem seg_some (r : Rand) : ∃ n r', randSeg r = some (n, r') ∧ Spec.Part n := intn_some (by omega) r

theorem seg_draw {n : Int} (h : Spec.Part n) (r : Rand) : randSeg (n.toNat :: r) = some (n, r) := intn_draw h.1 h.2 r

theorem bound_range (size : Int) : 1 ≤ bound 1 size 10 ∧ bound 1 size 10 ≤ 10 := by
  unfold bound
  simp only
  split <;> split <;> omega

theorem bound_ge {size k : Int} (h1 : k ≤ 10) (h2 : k ≤ size) : k ≤ bound 1 size 10 := by
  unfold bound
  simp only
  split <;> split <;> omega

theorem segs_some : ∀ (n : Nat) (r : Rand), ∃ l r', randSegs n r = some (l, r') ∧ l.length = n ∧ ∀ x ∈ l, Spec.Part x := by
  intro n
  induction n with
  | zero => intro r; exact ⟨[], r, rfl, rfl, by simp⟩
  | succ n ih =>
    intro r
    obtain ⟨x, r1, h1, h2⟩ := seg_some r
    obtain ⟨l, r2, h3, h4, h5⟩ := ih r1
    refine ⟨x :: l, r2, by rw [randSegs, h1]; simp only [Option.bind_some, h3, Option.map_some], by simp [h4], ?_⟩
    intro y hy
    rcases List.mem_cons.mp hy with rfl | hy
    · exact h2
    · exact h5 y hy

theorem segs_draw : ∀ (l : List Int), (∀ x ∈ l, Spec.Part x) → ∀ r : Rand, randSegs l.length (l.map Int.toNat ++ r) = some (l, r) := by
  intro l
  induction l with
  | nil => intro _ r; rfl
  | cons x l ih =>
    intro h r
    rw [List.length_cons, randSegs, List.map_cons, List.cons_append, seg_draw (h x (by simp))]
    simp only [Option.bind_some, ih (fun y hy => h y (by simp [hy])), Option.map_some]

theorem pick_some {α : Type} {l : List α} {i : Int} (h0 : 0 ≤ i) (h : i < l.length) : ∃ a, pick l i = some a ∧ a ∈ l := by
  unfold pick
  rw [if_pos h0]
  have : i.toNat < l.length := by omega
  exact ⟨l[i.toNat], List.getElem?_eq_getElem this, List.getElem_mem _⟩

theorem pick_draw {α : Type} {l : List α} {a : α} (h : a ∈ l) : ∃ i : Int, 0 ≤ i ∧ i < l.length ∧ pick l i = some a := by
  obtain ⟨i, hi, rfl⟩ := List.mem_iff_getElem.mp h
  refine ⟨i, by omega, by omega, ?_⟩
  unfold pick
  rw [if_pos (by omega)]
  simp

theorem field_some {old : Option Int} (ho : ∀ n, old = some n → Spec.Part n) (r : Rand) :
    ∃ x r', randField old r = some (x, r') ∧ ∀ n, x = some n → Spec.Part n := by
  obtain ⟨b, r1, h1⟩ := bool_some r
  unfold randField
  rw [h1]
  simp only [Option.bind_some]
  cases b with
  | true =>
    obtain ⟨n, r2, h2, h3⟩ := seg_some r1
    rw [if_pos rfl, h2]
    exact ⟨_, _, rfl, fun m hm => by cases hm; exact h3⟩
  | false => exact ⟨_, _, by rw [if_neg (by simp)], ho⟩

theorem field_draw (x : Option Int) (h : ∀ n, x = some n → Spec.Part n) (r : Rand) : ∃ rs : Rand, randField none (rs ++ r) = some (x, r) := by
  cases x with
  | none =>
    refine ⟨[0], ?_⟩
    unfold randField
    rw [List.cons_append, List.nil_append, show (0 : Nat) = if false then 1 else 0 from rfl, bool_draw]
    rfl
  | some n =>
    refine ⟨[1, n.toNat], ?_⟩
    unfold randField
    rw [List.cons_append, List.cons_append, List.nil_append, show (1 : Nat) = if true then 1 else 0 from rfl, bool_draw]
    simp only [Option.bind_some, if_true]
    rw [seg_draw (h n rfl)]
    rfl

/-! ### versions -/

theorem pub_some {ver : PubVer} (h1 : Spec.Part ver.epoch) (h2 : ∀ l n, ver.pre = some (l, n) → l ∈ ["a".toList, "b".toList, "rc".toList] ∧ Spec.Part n)
    (h3 : ∀ n, ver.post = some n → Spec.Part n) (h4 : ∀ n, ver.dev = some n → Spec.Part n) (r : Rand) (size : Int) :
    ∃ v r', ver.generate r size = some (v, r') ∧ Spec.DrawnPub v := by
  unfold PubVer.generate
  obtain ⟨b, r1, e1⟩ := bool_some r
  rw [e1]
  simp only [Option.bind_some]
  obtain ⟨ep, r2, e2, g1⟩ : ∃ ep r2, (if b = true then randSeg r1 else some (ver.epoch, r1)) = some (ep, r2) ∧ Spec.Part ep := by
    cases b with
    | true => rw [if_pos rfl]; exact seg_some r1
    | false => exact ⟨_, _, by rw [if_neg (by simp)], h1⟩
  rw [e2]
  simp only [Option.bind_some]
  obtain ⟨hb1, hb2⟩ := bound_range size
  obtain ⟨n, r3, e3, hn1, hn2⟩ := intn_some (n := bound 1 size 10) (by omega) r2
  rw [e3]
  simp only [Option.bind_some]
  obtain ⟨rel, r4, e4, g2, g3⟩ := segs_some (1 + n).toNat r3
  rw [e4]
  simp only [Option.bind_some]
  obtain ⟨b, r5, e5⟩ := bool_some r4
  rw [e5]
  simp only [Option.bind_some]
  obtain ⟨pre, r6, e6, g4⟩ : ∃ pre r6, (if b = true then (intn 3 r5).bind fun i => (pick ["a".toList, "b".toList, "rc".toList] i.1).bind fun l =>
      (randSeg i.2).map fun x => (some (l, x.1), x.2) else some (ver.pre, r5)) = some (pre, r6) ∧
      ∀ l n, pre = some (l, n) → l ∈ ["a".toList, "b".toList, "rc".toList] ∧ Spec.Part n := by
    cases b with
    | true =>
      rw [if_pos rfl]
      obtain ⟨i, r', a1, a2, a3⟩ := intn_some (n := 3) (by omega) r5
      obtain ⟨l, a4, a5⟩ := pick_some (l := ["a".toList, "b".toList, "rc".toList]) a2 a3
      obtain ⟨x, r'', a6, a7⟩ := seg_some r'
      rw [a1]
      simp only [Option.bind_some, a4, a6, Option.map_some]
      refine ⟨_, _, rfl, ?_⟩
      intro l' n' e
      cases e
      exact ⟨a5, a7⟩
    | false => exact ⟨_, _, by rw [if_neg (by simp)], h2⟩
  rw [e6]
  simp only [Option.bind_some]
  obtain ⟨post, r7, e7, g5⟩ := field_some h3 r6
  rw [e7]
  simp only [Option.bind_some]
  obtain ⟨dev, r8, e8, g6⟩ := field_some h4 r7
  rw [e8]
  simp only [Option.map_some]
  refine ⟨_, _, rfl, g1, ⟨?_, ?_, g3⟩, g4, g5, g6⟩
  · intro e
    simp only at e
    rw [e] at g2
    simp only [List.length_nil] at g2
    omega
  · simp only; omega

theorem pub_draw {v : PubVer} (h : Spec.DrawnPub v) {size : Int} (hs : (v.release.length : Int) ≤ size) (r : Rand) :
    ∃ rs : Rand, PubVer.generate ⟨0, [], none, none, none⟩ (rs ++ r) size = some (v, r) := by
  obtain ⟨rs1, d1⟩ := field_draw v.dev h.dev r
  obtain ⟨rs2, d2⟩ := field_draw v.post h.post (rs1 ++ r)
  have hpre : ∃ rs : Rand, ((randBool (rs ++ (rs2 ++ (rs1 ++ r)))).bind fun b =>
      (if b.1 = true then (intn 3 b.2).bind fun i => (pick ["a".toList, "b".toList, "rc".toList] i.1).bind fun l =>
      (randSeg i.2).map fun x => (some (l, x.1), x.2) else some (none, b.2))) = some (v.pre, rs2 ++ (rs1 ++ r)) := by
    cases hp : v.pre with
    | none =>
      refine ⟨[0], ?_⟩
      rw [List.cons_append, List.nil_append, show (0 : Nat) = if false then 1 else 0 from rfl, bool_draw]
      rfl
    | some ln =>
      obtain ⟨l, n⟩ := ln
      obtain ⟨a1, a2⟩ := h.pre l n hp
      obtain ⟨i, i1, i2, i3⟩ := pick_draw a1
      refine ⟨[1, i.toNat, n.toNat], ?_⟩
      rw [List.cons_append, List.cons_append, List.cons_append, List.nil_append, show (1 : Nat) = if true then 1 else 0 from rfl, bool_draw]
      simp only [Option.bind_some, if_true]
      rw [intn_draw (n := 3) i1 i2]
      simp only [Option.bind_some, i3, seg_draw a2, Option.map_some]
  obtain ⟨rs3, d3⟩ := hpre
  obtain ⟨hne, hlen, hparts⟩ := h.release
  have hlen0 : 0 < v.release.length := List.length_pos_iff.mpr hne
  have hk : (v.release.length : Int) ≤ bound 1 size 10 := bound_ge (by omega) hs
  refine ⟨[1, v.epoch.toNat, ((v.release.length : Int) - 1).toNat] ++ v.release.map Int.toNat ++ rs3 ++ rs2 ++ rs1, ?_⟩
  unfold PubVer.generate
  simp only [List.append_assoc, List.cons_append, List.nil_append]
  rw [show (1 : Nat) = if true then 1 else 0 from rfl, bool_draw]
  simp only [Option.bind_some, if_true]
  rw [seg_draw h.epoch]
  simp only [Option.bind_some]
  rw [intn_draw (by omega) (by omega)]
  simp only [Option.bind_some]
  rw [show (1 + ((v.release.length : Int) - 1)).toNat = v.release.length by omega, segs_draw _ hparts]
  simp only [Option.bind_some]
  have : ∀ (x : Option (Bool × Rand)) (f : Bool × Rand → Option (Option (Str × Int) × Rand)) (g : Option (Str × Int) × Rand → Option (PubVer × Rand)),
      (x.bind fun b => (f b).bind g) = (x.bind f).bind g := by intro x f g; cases x <;> rfl
  rw [this, d3]
  simp only [Option.bind_some, d2, d1, Option.map_some]

theorem buf_some : ∀ (n : Nat) (r : Rand), ∃ s r', randBuf n r = some (s, r') ∧ s.length = n ∧ ∀ c ∈ s, c ∈ "abcdefghijklmnopqrstuvwxyz0123456789".toList := by
  intro n
  induction n with
  | zero => intro r; exact ⟨[], r, rfl, rfl, by simp⟩
  | succ n ih =>
    intro r
    obtain ⟨i, r1, h1, h2, h3⟩ := intn_some (n := alphadig.length) (by decide) r
    obtain ⟨c, h4, h5⟩ := pick_some h2 h3
    obtain ⟨s, r2, h6, h7, h8⟩ := ih r1
    refine ⟨c :: s, r2, by rw [randBuf, h1]; simp only [Option.bind_some, h4, h6, Option.map_some], by simp [h7], ?_⟩
    intro y hy
    rcases List.mem_cons.mp hy with rfl | hy
    · exact h5
    · exact h8 y hy

theorem buf_draw : ∀ (s : Str), (∀ c ∈ s, c ∈ "abcdefghijklmnopqrstuvwxyz0123456789".toList) → ∃ rs : Rand, ∀ r : Rand, randBuf s.length (rs ++ r) = some (s, r) := by
  intro s
  induction s with
  | nil => intro _; exact ⟨[], fun r => rfl⟩
  | cons c s ih =>
    intro h
    obtain ⟨rs, hr⟩ := ih (fun x hx => h x (by simp [hx]))
    obtain ⟨i, i1, i2, i3⟩ := pick_draw (l := alphadig) (h c (by simp))
    refine ⟨i.toNat :: rs, fun r => ?_⟩
    rw [List.length_cons, randBuf, List.cons_append, intn_draw i1 i2]
    simp only [Option.bind_some, i3, hr, Option.map_some]

theorem word_some {n : Nat} (hn : n ≠ 0) (hn' : n ≤ 10) (r : Rand) : ∃ s r', randWord n r = some (s, r') ∧ s.length = n ∧ Spec.DrawnSeg (.str s) := by
  cases n with
  | zero => exact absurd rfl hn
  | succ n =>
    obtain ⟨i, r1, h1, h2, h3⟩ := intn_some (n := alpha.length) (by decide) r
    obtain ⟨c, h4, h5⟩ := pick_some h2 h3
    obtain ⟨s, r2, h6, h7, h8⟩ := buf_some n r1
    exact ⟨c :: s, r2, by rw [randWord, h1]; simp only [Option.bind_some, h4, h6, Option.map_some], by simp [h7], by simp [h7]; omega, c, s, rfl, h5, h8⟩

theorem word_draw {s : Str} (h : Spec.DrawnSeg (.str s)) : ∃ rs : Rand, ∀ r : Rand, randWord s.length (rs ++ r) = some (s, r) := by
  obtain ⟨_, c, cs, rfl, h1, h2⟩ := h
  obtain ⟨rs, hr⟩ := buf_draw cs h2
  obtain ⟨i, i1, i2, i3⟩ := pick_draw (l := alpha) h1
  refine ⟨i.toNat :: rs, fun r => ?_⟩
  rw [List.length_cons, randWord, List.cons_append, intn_draw i1 i2]
  simp only [Option.bind_some, i3, hr, Option.map_some]

theorem local_some : ∀ (n : Nat) (r : Rand) (size : Int), ∃ l r' size', randLocal n r size = some (l, r', size') ∧ l.length = n ∧ ∀ s ∈ l, Spec.DrawnSeg s := by
  intro n
  induction n with
  | zero => intro r size; exact ⟨[], r, size, rfl, rfl, by simp⟩
  | succ n ih =>
    intro r size
    obtain ⟨b, r1, h1⟩ := bool_some r
    rw [randLocal, h1]
    simp only [Option.bind_some]
    cases b with
    | true =>
      rw [if_pos rfl]
      obtain ⟨x, r2, h2, h3⟩ := seg_some r1
      obtain ⟨l, r3, s3, h4, h5, h6⟩ := ih r2 size
      rw [h2]
      simp only [Option.bind_some, h4, Option.map_some]
      refine ⟨_, _, _, rfl, by simp [h5], ?_⟩
      intro y hy
      rcases List.mem_cons.mp hy with rfl | hy
      · exact h3
      · exact h6 y hy
    | false =>
      rw [if_neg (by simp)]
      obtain ⟨hb1, hb2⟩ := bound_range size
      obtain ⟨k, r2, h2, k1, k2⟩ := intn_some (n := bound 1 size 10) (by omega) r1
      obtain ⟨w, r3, h3, _, h4⟩ := word_some (n := (1 + k).toNat) (by omega) (by omega) r2
      obtain ⟨l, r4, s4, h5, h6, h7⟩ := ih r3 (size - (1 + k))
      rw [h2]
      simp only [Option.bind_some, h3, h5, Option.map_some]
      refine ⟨_, _, _, rfl, by simp [h6], ?_⟩
      intro y hy
      rcases List.mem_cons.mp hy with rfl | hy
      · exact h4
      · exact h7 y hy

/-- the size the strings of a label take -/
def lens : List Seg → Nat
  | [] => 0
  | .int _ :: l => lens l
  | .str s :: l => s.length + lens l

theorem weight_eq : ∀ l, Spec.weight l = l.length + lens l := by
  intro l
  induction l with
  | nil => rfl
  | cons s l ih => cases s <;> simp only [Spec.weight, lens, List.length_cons, ih] <;> omega

theorem local_draw : ∀ (l : List Seg), (∀ s ∈ l, Spec.DrawnSeg s) → ∀ (size : Int), (lens l : Int) ≤ size →
    ∃ rs : Rand, ∀ r : Rand, randLocal l.length (rs ++ r) size = some (l, r, size - lens l) := by
  intro l
  induction l with
  | nil => intro _ size _; exact ⟨[], fun r => by simp [randLocal, lens]⟩
  | cons s l ih =>
    intro h size hs
    cases s with
    | int n =>
      obtain ⟨rs, hr⟩ := ih (fun x hx => h x (by simp [hx])) size hs
      refine ⟨1 :: n.toNat :: rs, fun r => ?_⟩
      rw [List.length_cons, randLocal, List.cons_append, List.cons_append, show (1 : Nat) = if true then 1 else 0 from rfl, bool_draw]
      simp only [Option.bind_some, if_true]
      rw [seg_draw (h (.int n) (by simp))]
      simp only [Option.bind_some, hr, Option.map_some]
      rfl
    | str s =>
      have hd := h (.str s) (by simp)
      have hle : s.length ≤ 10 := hd.1
      obtain ⟨ws, hw⟩ := word_draw hd
      have hpos : 0 < s.length := by obtain ⟨_, c, cs, rfl, _⟩ := hd; simp
      simp only [lens] at hs
      obtain ⟨rs, hr⟩ := ih (fun x hx => h x (by simp [hx])) (size - s.length) (by omega)
      refine ⟨0 :: ((s.length : Int) - 1).toNat :: (ws ++ rs), fun r => ?_⟩
      have hk : (s.length : Int) ≤ bound 1 size 10 := bound_ge (by omega) (by omega)
      rw [List.length_cons, randLocal, List.cons_append, List.cons_append, show (0 : Nat) = if false then 1 else 0 from rfl, bool_draw]
      simp only [Option.bind_some]
      rw [if_neg (by simp), intn_draw (by omega) (by omega)]
      simp only [Option.bind_some]
      rw [show (1 + ((s.length : Int) - 1)).toNat = s.length by omega, List.append_assoc, hw]
      simp only [Option.bind_some]
      rw [show size - (1 + ((s.length : Int) - 1)) = size - s.length by omega, hr]
      simp only [Option.map_some, lens]
      rw [show size - (s.length : Int) - (lens l : Int) = size - ((s.length + lens l : Nat) : Int) by omega]

theorem drawn_canonical {v : Ver} (h : Spec.Drawn v) : Spec.Canonical v := by
  have hp : ∀ n, Spec.Part n → 0 ≤ n ∧ n < 2 ^ 63 := fun n h => ⟨h.1, Int.lt_trans h.2 (by decide)⟩
  have hp' : ∀ n, Spec.Part n → 0 ≤ n ∧ n < 2 ^ 31 := fun n h => ⟨h.1, Int.lt_trans h.2 (by decide)⟩
  refine ⟨hp _ h.pub.epoch, h.pub.release.1, fun n hn => hp n (h.pub.release.2.2 n hn), fun l n e => ⟨(h.pub.pre l n e).1, hp n (h.pub.pre l n e).2⟩,
    fun n e => hp n (h.pub.post n e), fun n e => hp n (h.pub.dev n e), fun n hn => hp' n (h.loc.2 _ hn), fun s hs => ?_⟩
  obtain ⟨_, c, cs, rfl, h1, h2⟩ := h.loc.2 _ hs
  refine ⟨by simp, ?_, c, by simp, ?_⟩
  · intro x hx
    rcases List.mem_cons.mp hx with rfl | hx
    · have : ∀ y ∈ "abcdefghijklmnopqrstuvwxyz".toList, y ∈ "abcdefghijklmnopqrstuvwxyz0123456789".toList := by decide
      exact this x h1
    · exact h2 x hx
  · have : ∀ y ∈ "abcdefghijklmnopqrstuvwxyz".toList, y ∉ "0123456789".toList := by decide
    exact this c h1

/-! ### the property -/

/-- **C120** (what is drawn).  Whatever the source of random numbers gives and whatever size testing/quick asks for, `Generate` returns,
without a panic, a version in canonical form with at most ten release and ten label segments; and it is printed to a text that is read
back as the same version. -/
theorem C120_drawn (r : Rand) (size : Int) : ∃ v r', Ver.generate zeroVer r size = some (v, r') ∧ Spec.Drawn v ∧ Spec.Canonical v ∧
    ∃ t, v.string = some t ∧ parseVersion t = .ok v := by
  have key : ∃ v r', Ver.generate zeroVer r size = some (v, r') ∧ Spec.Drawn v := by
    unfold Ver.generate
    obtain ⟨b, r1, h1⟩ := bool_some r
    rw [h1]
    simp only [Option.bind_some]
    obtain ⟨l, r2, s2, h2, h3, h4⟩ : ∃ l r2 s2, (if b = true then (intn (bound 1 size 10) r1).bind fun n => randLocal (1 + n.1).toNat n.2 (size - (1 + n.1))
        else some (zeroVer.loc, r1, size)) = some (l, r2, s2) ∧ l.length ≤ 10 ∧ ∀ s ∈ l, Spec.DrawnSeg s := by
      cases b with
      | true =>
        rw [if_pos rfl]
        obtain ⟨hb1, hb2⟩ := bound_range size
        obtain ⟨k, r2, h2, k1, k2⟩ := intn_some (n := bound 1 size 10) (by omega) r1
        obtain ⟨l, r3, s3, h5, h6, h7⟩ := local_some (1 + k).toNat r2 (size - (1 + k))
        rw [h2]
        exact ⟨l, r3, s3, h5, by omega, h7⟩
      | false => exact ⟨_, _, _, by rw [if_neg (by simp)], by decide, by simp [zeroVer]⟩
    rw [h2]
    simp only [Option.bind_some]
    obtain ⟨p, r3, h5, h6⟩ := pub_some (ver := zeroVer.toPubVer) ⟨by decide, by decide⟩ (by simp [zeroVer]) (by simp [zeroVer]) (by simp [zeroVer]) r2 s2
    rw [h5]
    exact ⟨⟨p, l⟩, r3, rfl, h6, h3, h4⟩
  obtain ⟨v, r', h1, h2⟩ := key
  exact ⟨v, r', h1, h2, drawn_canonical h2, C05_canonical_accepted (drawn_canonical h2)⟩

/-- **C120** (everything is drawn).  Every version with parts below 3000, at most ten release and ten label segments, and label strings of
at most ten characters that begin with a letter, is returned for some random numbers, if it is not larger than the size asked for: each
segment and each character of a string counts one. -/
theorem C120_reached (v : Ver) (h : Spec.Drawn v) (size : Int) (hs : (Spec.weight v.loc : Int) + v.release.length ≤ size) :
    ∃ r : Rand, Ver.generate zeroVer r size = some (v, []) := by
  rw [weight_eq] at hs
  obtain ⟨pr, hp⟩ := pub_draw h.pub (size := size - v.loc.length - lens v.loc) (by omega) []
  rw [List.append_nil] at hp
  cases hl : v.loc with
  | nil =>
    refine ⟨0 :: pr, ?_⟩
    rw [hl] at hp
    simp only [List.length_nil, lens] at hp
    unfold Ver.generate
    rw [show (0 : Nat) = if false then 1 else 0 from rfl, bool_draw]
    simp only [Option.bind_some]
    rw [if_neg (by simp)]
    simp only [Option.bind_some]
    rw [show size - ((0 : Nat) : Int) - ((0 : Nat) : Int) = size by omega] at hp
    show (PubVer.generate ⟨0, [], none, none, none⟩ pr size).map _ = _
    rw [hp]
    simp only [Option.map_some, zeroVer, ← hl]
  | cons s l =>
    have hlen : v.loc.length = l.length + 1 := by rw [hl]; rfl
    have h10 := h.loc.1
    obtain ⟨lr, hlr⟩ := local_draw v.loc h.loc.2 (size - v.loc.length) (by omega)
    refine ⟨1 :: ((v.loc.length : Int) - 1).toNat :: (lr ++ pr), ?_⟩
    have hk : (v.loc.length : Int) ≤ bound 1 size 10 := bound_ge (by omega) (by omega)
    unfold Ver.generate
    rw [show (1 : Nat) = if true then 1 else 0 from rfl, bool_draw]
    simp only [Option.bind_some, if_true]
    rw [intn_draw (by omega) (by omega)]
    simp only [Option.bind_some]
    rw [show (1 + ((v.loc.length : Int) - 1)).toNat = v.loc.length by omega, show size - (1 + ((v.loc.length : Int) - 1)) = size - v.loc.length by omega, hlr]
    simp only [Option.bind_some]
    show (PubVer.generate ⟨0, [], none, none, none⟩ pr _).map _ = _
    rw [hp]
    rfl

/-- **C120** (operators).  `Generate` returns a comparison operator, and every one of them is returned for some random number. -/
theorem C120_operators : (∀ r : Rand, ∃ op r', CmpOp.generate r = some (op, r')) ∧ ∀ op : CmpOp, ∃ r : Rand, CmpOp.generate r = some (op, []) := by
  constructor
  · intro r
    obtain ⟨i, r', h1, h2, h3⟩ := intn_some (n := 9) (by omega) r
    obtain ⟨op, h4, _⟩ := pick_some (l := [CmpOp.compatible, .strictMatch, .prefixMatch, .strictExclude, .prefixExclude, .le, .ge, .lt, .gt]) h2 h3
    exact ⟨op, r', by unfold CmpOp.generate; rw [h1]; simp only [Option.bind_some, h4, Option.map_some]⟩
  · intro op
    obtain ⟨i, i1, i2, i3⟩ := pick_draw (l := [CmpOp.compatible, .strictMatch, .prefixMatch, .strictExclude, .prefixExclude, .le, .ge, .lt, .gt]) (a := op) (by
      cases op <;> decide)
    refine ⟨[i.toNat], ?_⟩
    unfold CmpOp.generate
    rw [intn_draw (n := 9) i1 i2]
    simp only [Option.bind_some, i3, Option.map_some]

/-- a version that is reached with the size testing/quick uses, 50 -/
def exDrawn : Ver := ⟨⟨1, [2, 0, 10], some ("rc".toList, 3), some 4, none⟩, [.str "ubuntu20".toList, .int 7]⟩

example : Spec.Drawn exDrawn ∧ (Spec.weight exDrawn.loc : Int) + exDrawn.release.length ≤ 50 := by
  refine ⟨⟨⟨⟨by decide, by decide⟩, ⟨by decide, by decide, ?_⟩, ?_, ?_, ?_⟩, by decide, ?_⟩, by decide⟩
  · intro n hn
    have : ∀ n ∈ exDrawn.release, 0 ≤ n ∧ n < 3000 := by decide
    exact this n hn
  · intro l n e; cases e; exact ⟨by decide, by decide, by decide⟩
  · intro n e; cases e; exact ⟨by decide, by decide⟩
  · intro n e; cases e
  · intro s hs
    simp only [exDrawn, List.mem_cons, List.not_mem_nil, or_false] at hs
    rcases hs with rfl | rfl
    · exact ⟨by decide, 'u', "buntu20".toList, rfl, by decide, by decide⟩
    · exact ⟨by decide, by decide⟩

example : Ver.generate zeroVer [1, 1, 0, 7, 20, 1, 20, 13, 19, 20, 28, 26, 1, 7, 1, 1, 2, 2, 0, 10, 1, 2, 3, 1, 4, 0] 50 = some (exDrawn, []) := by decide +kernel

end Pep440
