import Verif.Squash.LazyMaps
import Verif.Squash.PropsWalkDir
import Verif.Squash.PropsFollow
/-! Property C129: goroutines can share the file system that `Load` returns. -/
namespace Squash.Lazy
open Go Squash

namespace Spec

/-- the next access of a goroutine: the node whose `children` it accesses, and whether it writes -/
def Next (m : Option (Call × Prog Out)) (p : Path) (writes : Bool) : Prop :=
  (∃ c k, m = some (c, .read p k) ∧ writes = false) ∨ ∃ c k, m = some (c, .make p k) ∧ writes = true

/-- a data race: two goroutines access one variable at the same time, without a lock, and one of them writes -/
def Race (st : State) : Prop :=
  ∃ g g' p w, g ≠ g' ∧ Next (st.pc g) p true ∧ Next (st.pc g') p w

end Spec
open Spec

theorem fits_heapOf (T : Mem) (p : Path) : Fits T.1 p (heapOf T p) := by
  unfold heapOf Fits
  split
  · exact .inl rfl
  · rename_i h
    exact .inr ⟨rfl, Classical.not_not.mp fun h2 => h (.inr h2)⟩

theorem good_code (S : FS) (n : Nat) : ∀ c : Call, Good S (alone S n c) (code S n c)
  | .opens name => good_andThen (good_open n name) rfl
  | .lists p order => by
    refine good_andThen (r := listLoop (kidsOf n order S p) []) ?_ rfl
    intro _ _ v hv
    have e : v.getD [] = childNames S p := by
      rcases hv with rfl | ⟨rfl, h⟩
      · rfl
      · exact h.symm
    show Good S _ (listP S n p (order (v.getD [])) [])
    rw [e]
    exact good_list n p (order (childNames S p)) []

/-- what holds in all states that can come up -/
theorem reach_inv {T : Mem} {n : Nat} {st : State} (h : Reach T n st) :
    (∀ p, Fits T.1 p (st.heap p)) ∧ (∀ g c m, st.pc g = some (c, m) → Good T.1 (alone T.1 n c) m) ∧
    ∀ g c o, (g, c, o) ∈ st.returned → o = alone T.1 n c := by
  induction h with
  | start => exact ⟨fits_heapOf T, fun _ _ _ h => (nomatch h), fun _ _ _ h => (nomatch h)⟩
  | call g c _ hg ih =>
    refine ⟨ih.1, fun i c' m hm => ?_, ih.2.2⟩
    simp only [State.at] at hm
    split at hm
    · cases hm; exact good_code T.1 n c
    · exact ih.2.1 i c' m hm
  | read g c p k _ hg ih =>
    refine ⟨ih.1, fun i c' m hm => ?_, ih.2.2⟩
    simp only [State.at] at hm
    split at hm
    · cases hm; exact ih.2.1 g c _ hg _ (ih.1 p)
    · exact ih.2.1 i c' m hm
  | make g c p k _ hg ih =>
    have hk := ih.2.1 g c _ hg
    refine ⟨fun q => ?_, fun i c' m hm => ?_, ih.2.2⟩
    · simp only
      split
      · rename_i e; rw [e, ← hk.1]; exact .inl rfl
      · exact ih.1 q
    · simp only [State.at] at hm
      split at hm
      · cases hm; exact hk.2
      · exact ih.2.1 i c' m hm
  | ret g c o _ hg ih =>
    refine ⟨ih.1, fun i c' m hm => ?_, fun i c' o' hm => ?_⟩
    · simp only [State.at] at hm
      split at hm
      · cases hm
      · exact ih.2.1 i c' m hm
    · rcases List.mem_append.mp hm with hm | hm
      · exact ih.2.2 i c' o' hm
      · simp only [List.mem_singleton, Prod.mk.injEq] at hm
        obtain ⟨_, rfl, rfl⟩ := hm
        exact ih.2.1 g _ _ hg

/-- **C129** (partial), results: whatever goroutines open and list, and however their accesses are interleaved, each call returns what it
would have returned without the others: what `openFile` and the loop of `ReadDir` give.  This takes for granted that a read returns the
value that was written last, which Go grants only to programs without data races; see `C129_violated`. -/
theorem C129_same_partial (m : Nat) (layers : List (List Entry)) (oc : Bool) (T : Mem) (_hload : loadM m layers oc = some (.ok T)) (n : Nat)
    {st : State} (h : Reach T n st) (g : Nat) (c : Call) (o : Out) (hr : (g, c, o) ∈ st.returned) :
    match c with
    | .opens name => o = .opened (openFile n T.1 name)
    | .lists p order => o = .listed (listLoop (kidsOf n order T.1 p) []) := by
  have := (reach_inv h).2.2 g c o hr
  cases c with
  | opens name => exact this
  | lists p order => exact this

/-! ### no writes -/

/-- with these variables the goroutine does not write -/
def Calm {α : Type} (h : Heap) : Prog α → Prop
  | .ret _ => True
  | .read p k => Calm h (k (h p))
  | .make _ _ => False

/-- what it ends with if the variables stay as they are -/
def result {α : Type} (h : Heap) : Prog α → α
  | .ret a => a
  | .read p k => result h (k (h p))
  | .make _ k => result h k

/-- it does not write, and ends at a node that there is -/
def Fine (h : Heap) (S : FS) (m : Prog (Res Path)) : Prop := Calm h m ∧ ∀ a, result h m = some (.ok a) → S.has a

theorem calm_bind {α β : Type} {h : Heap} {f : α → Prog (Res β)} : ∀ {m : Prog (Res α)}, Calm h m →
    (∀ a, result h m = some (.ok a) → Calm h (f a)) → Calm h (m.bind f)
  | .ret none, _, _ => trivial
  | .ret (some (.error _)), _, _ => trivial
  | .ret (some (.ok a)), _, hf => hf a rfl
  | .read p k, hm, hf => calm_bind (m := k (h p)) hm hf

theorem result_bind {α β : Type} {h : Heap} {f : α → Prog (Res β)} : ∀ {m : Prog (Res α)},
    result h (m.bind f) = (result h m).bind fun a => result h (f a)
  | .ret none => rfl
  | .ret (some (.error _)) => rfl
  | .ret (some (.ok _)) => rfl
  | .read p k => result_bind (m := k (h p))
  | .make _ k => result_bind (m := k)

theorem calm_andThen {α β : Type} {h : Heap} {f : α → Prog β} : ∀ {m : Prog α}, Calm h m → (∀ a, Calm h (f a)) → Calm h (m.andThen f)
  | .ret a, _, hf => hf a
  | .read p k, hm, hf => calm_andThen (m := k (h p)) hm hf

theorem fine_bind {h : Heap} {S : FS} {m : Prog (Res Path)} {f : Path → Prog (Res Path)} (hm : Fine h S m)
    (hf : ∀ a, S.has a → Fine h S (f a)) : Fine h S (m.bind f) := by
  refine ⟨calm_bind hm.1 fun a ha => (hf a (hm.2 a ha)).1, fun a ha => ?_⟩
  rw [result_bind] at ha
  obtain ⟨b, hb, ha⟩ := bind_ok.mp ha
  exact (hf b (hm.2 b hb)).2 a ha

theorem fine_ok {h : Heap} {S : FS} {a : Path} (ha : S.has a) : Fine h S (.ret (some (.ok a))) :=
  ⟨trivial, fun b hb => by cases hb; exact ha⟩
theorem fine_err {h : Heap} {S : FS} : Fine h S (.ret (some (.error ()))) := ⟨trivial, fun _ hb => by cases hb⟩
theorem fine_none {h : Heap} {S : FS} : Fine h S (.ret none) := ⟨trivial, fun _ hb => by cases hb⟩

section
variable {T : Mem} (hi : Inv false T.1) (hfull : ∀ p, T.1.has p → T.1.nonDir p = false → heapOf T p ≠ none)
include hi hfull

omit hi in
theorem fine_child {f : Path} (hf : T.1.has f) (hd : T.1.nonDir f = false) (c : Str) : Fine (heapOf T) T.1 (childP f c) := by
  cases e : heapOf T f with
  | none => exact absurd e (hfull f hf hd)
  | some l =>
    have hl : l = childNames T.1 f := by
      rcases fits_heapOf T f with h | h
      · rw [e] at h; exact Option.some.inj h
      · rw [e] at h; cases h.1
    constructor
    · simp only [childP, Calm, e]
    · intro a ha
      simp only [childP, result, e, Option.getD_some] at ha
      split at ha
      · rename_i hc
        cases ha
        rw [List.contains_iff_mem, hl, mem_childNames] at hc
        exact hc
      · cases ha

omit hi hfull in
theorem fine_walk {h : Heap} {S : FS} {g : Path → Str → Bool → Prog (Res Path)} (hg : ∀ d c fl, S.has d → Fine h S (g d c fl)) (fl : Bool) :
    ∀ (cs : List Str) (d : Path), S.has d → Fine h S (walkP g d cs fl)
  | [], d, hd => fine_ok hd
  | [c], d, hd => hg d c fl hd
  | c :: c2 :: cs, d, hd => by
    rw [walkP]
    · exact fine_bind (hg d c false hd) fun d hd => fine_walk hg fl (c2 :: cs) d hd
    · simp

omit hfull in
theorem fine_fsGet {h : Heap} {g : Path → Str → Bool → Prog (Res Path)} (hg : ∀ d c fl, T.1.has d → Fine h T.1 (g d c fl)) (d : Path)
    (hd : T.1.has d) (l : Str) (fl : Bool) : Fine h T.1 (fsGetP g d l fl) := by
  unfold fsGetP
  simp only
  split
  · exact fine_walk hg fl _ _ hi.root
  · exact fine_walk hg fl _ _ hd

omit hfull in
theorem fine_resolve {h : Heap} {g : Path → Str → Prog (Res Path)} (hg : ∀ d l, T.1.has d → Fine h T.1 (g d l)) :
    ∀ (k : Nat) (st : List Path) (r : Path), T.1.has r → Fine h T.1 (resolveP T.1 g k st r)
  | 0, _, _, _ => fine_none
  | k + 1, st, r, hr => by
    rw [resolveP]
    cases T.1.link r with
    | none => exact fine_ok hr
    | some lnk =>
      simp only
      split
      · exact fine_err
      · exact fine_bind (hg _ _ (hi.dropLast hr)) fun x hx => fine_resolve hg k _ x hx

theorem fine_get : ∀ (n : Nat) (f : Path) (c : Str) (follow : Bool), T.1.has f → Fine (heapOf T) T.1 (getP T.1 n f c follow)
  | 0, _, _, _, _ => fine_none
  | n + 1, f, c, follow, hf => by
    rw [getP]
    have hfg : ∀ fl d l, T.1.has d → Fine (heapOf T) T.1 (fsGetP (fun d c fl => getP T.1 n d c fl) d l fl) :=
      fun fl d l hd => fine_fsGet hi (fun d c fl hd => fine_get n d c fl hd) d hd l fl
    refine fine_bind ?_ ?_
    · split
      · exact fine_ok (hi.dropLast hf)
      · split
        · exact fine_ok hf
        · refine fine_bind ?_ ?_
          · unfold enterP
            cases T.1.link f with
            | none => exact fine_ok hf
            | some lnk => exact hfg true _ _ (hi.dropLast hf)
          · intro a ha
            by_cases hd : T.1.nonDir a = true
            · simp only [if_pos hd]; exact fine_err
            · simp only [if_neg hd]; exact fine_child hfull ha (by simpa using hd) c
    · intro a ha
      split
      · exact fine_resolve hi (hfg false) n [] a ha
      · exact fine_ok ha

theorem calm_list (n : Nat) (p : Path) : ∀ (cs : List Str) (acc : List DirEnt), Calm (heapOf T) (listP T.1 n p cs acc)
  | [], _ => trivial
  | c :: cs, acc => by
    rw [listP]
    split
    · exact calm_list n p cs acc
    · refine calm_andThen ?_ fun r => ?_
      · by_cases h : T.1.has (p ++ [c])
        · exact (fine_get hi hfull n _ _ _ h).1
        · have hl : T.1.link (p ++ [c]) = none := by unfold FS.link; rw [not_has.mp h]
          cases n with
          | zero => exact trivial
          | succ n =>
            rw [getP]
            simp only [if_neg (show ".".toList ≠ "..".toList by decide), if_true, Prog.bind]
            cases n with
            | zero => exact trivial
            | succ n => rw [resolveP, hl]; exact trivial
      · match r with
        | none => exact trivial
        | some (.error _) => exact trivial
        | some (.ok _) => exact calm_list n p cs _

theorem calm_code (n : Nat) : ∀ c : Call, Calm (heapOf T) (code T.1 n c)
  | .opens name => by
    refine calm_andThen ?_ fun _ => trivial
    unfold openP
    split
    · exact trivial
    · have h1 := fine_fsGet hi (g := fun d c fl => getP T.1 n d c fl) (fun d c fl hd => fine_get hi hfull n d c fl hd) [] hi.root name false
      exact calm_bind h1.1 fun a ha => calm_bind (fine_get hi hfull n a _ _ (h1.2 a ha)).1 fun _ _ => trivial
  | .lists p order => calm_andThen (m := readDirP T.1 n p order) (calm_list hi hfull n p _ _) fun _ => trivial

theorem reach_calm {n : Nat} {st : State} (h : Reach T n st) :
    st.heap = heapOf T ∧ ∀ g c m, st.pc g = some (c, m) → Calm (heapOf T) m := by
  induction h with
  | start => exact ⟨rfl, fun _ _ _ h => (nomatch h)⟩
  | call g c _ hg ih =>
    refine ⟨ih.1, fun i c' m hm => ?_⟩
    simp only [State.at] at hm
    split at hm
    · cases hm; exact calm_code hi hfull n c
    · exact ih.2 i c' m hm
  | read g c p k _ hg ih =>
    refine ⟨ih.1, fun i c' m hm => ?_⟩
    simp only [State.at] at hm
    split at hm
    · cases hm; have := ih.2 g c _ hg; rw [ih.1]; exact this
    · exact ih.2 i c' m hm
  | make g c p k _ hg ih => exact (ih.2 g c _ hg).elim
  | ret g c o _ hg ih =>
    refine ⟨ih.1, fun i c' m hm => ?_⟩
    simp only [State.at] at hm
    split at hm
    · cases hm
    · exact ih.2 i c' m hm

end

/-- **C129** (partial), no data races: if there is something in every directory of the loaded file system (a whiteout marker will do), then
in no state that can come up do two goroutines access a variable at the same time of which one writes.  Missing: file systems with an
empty directory; see `C129_violated`. -/
theorem C129_race_free_partial (m : Nat) (layers : List (List Entry)) (oc : Bool) (T : Mem) (hload : loadM m layers oc = some (.ok T))
    (hfull : ∀ p nd, T.1.get? p = some nd → (∀ h, nd.header = some h → h.typeflag = '5') → ∃ c, (T.1.get? (p ++ [c])).isSome = true)
    (n : Nat) {st : State} (h : Reach T n st) : ¬ Race st := by
  have hi : Inv false T.1 := load_inv (fun h => (nomatch h)) (load_of hload)
  have hf : ∀ p, T.1.has p → T.1.nonDir p = false → heapOf T p ≠ none := by
    intro p hp hd
    obtain ⟨nd, e⟩ := Option.isSome_iff_exists.mp hp
    obtain ⟨c, hc⟩ := hfull p nd e (by
      intro hdr he
      unfold FS.nonDir Node.nonDir at hd
      rw [e] at hd
      simp only [he, decide_eq_false_iff_not, ne_eq, Classical.not_not] at hd
      exact hd)
    unfold heapOf
    rw [if_pos (.inr (fun h0 => by have := mem_childNames.mpr hc; rw [h0] at this; cases this))]
    simp
  rintro ⟨g, g', p, w, _, h1, _⟩
  rcases h1 with ⟨c, k, _, e⟩ | ⟨c, k, e, _⟩
  · cases e
  · exact (reach_calm hi hf h).2 g c _ e

/-! ### a race -/

/-- with these variables, after some reads -/
inductive Leads (h : Heap) {α : Type} : Prog α → Prog α → Prop
  | refl (m : Prog α) : Leads h m m
  | read (p : Path) (k : Option (List Str) → Prog α) (m : Prog α) : Leads h (k (h p)) m → Leads h (.read p k) m

theorem Leads.trans {h : Heap} {α : Type} {a b c : Prog α} (h1 : Leads h a b) (h2 : Leads h b c) : Leads h a c := by
  induction h1 with
  | refl m => exact h2
  | read p k m _ ih => exact .read p k c (ih h2)

theorem Leads.bind {h : Heap} {α β : Type} {a b : Prog (Res α)} (h1 : Leads h a b) (f : α → Prog (Res β)) : Leads h (a.bind f) (b.bind f) := by
  induction h1 with
  | refl m => exact .refl _
  | read p k m _ ih => exact .read p _ _ ih

theorem Leads.andThen {h : Heap} {α β : Type} {a b : Prog α} (h1 : Leads h a b) (f : α → Prog β) : Leads h (a.andThen f) (b.andThen f) := by
  induction h1 with
  | refl m => exact .refl _
  | read p k m _ ih => exact .read p _ _ ih

theorem leads_get {h : Heap} {S : FS} {n : Nat} {f : Path} {c : Str} (hd : S.nonDir f = false) (hc : Plain c) {m : Prog (Res Path)}
    (hl : Leads h (childP f c) m) : Leads h (getP S (n + 1) f c false) (m.bind fun x => .ret (some (.ok x))) := by
  rw [getP]
  simp only [if_neg (show c ≠ "..".toList from hc.2.2.1), if_neg (show c ≠ ".".toList from hc.2.1), enterP, link_none_of_dir hd, Prog.bind,
    hd, Bool.false_eq_true, if_false]
  exact hl.bind _

theorem leads_walk {T : Mem} (hi : Inv false T.1) {n : Nat} {x : Str} (hx : Plain x) :
    ∀ (cs : List Str) (d : Path), (∀ c ∈ cs, Plain c) → T.1.has (d ++ cs) → T.1.nonDir (d ++ cs) = false → heapOf T (d ++ cs) = none →
      ∃ k, Leads (heapOf T) (walkP (fun d c fl => getP T.1 (n + 1) d c fl) d (cs ++ [x]) false) (.make (d ++ cs) k) := by
  intro cs
  induction cs with
  | nil =>
    intro d _ _ hd hn
    rw [List.append_nil] at hd hn ⊢
    have h1 : Leads (heapOf T) (childP d x) (.make d (.read d fun _ => .read d fun v =>
        .ret (if (v.getD []).contains x then some (.ok (d ++ [x])) else some (.error ())))) := by
      refine .read _ _ _ ?_
      rw [hn]
      exact .refl _
    exact ⟨_, leads_get hd hx h1⟩
  | cons c cs ih =>
    intro d hp hh hd hn
    have e : d ++ c :: cs = (d ++ [c]) ++ cs := by simp
    rw [e] at hh hd hn ⊢
    obtain ⟨k, hk⟩ := ih (d ++ [c]) (fun y hy => hp y (by simp [hy])) hh hd hn
    have hc : T.1.has (d ++ [c]) := hi.prefix hh
    have hdd : T.1.nonDir d = false := by
      cases e2 : T.1.nonDir d with
      | false => rfl
      | true => unfold FS.has at hc; rw [hi.leaf d e2 c] at hc; cases hc
    have hm : c ∈ childNames T.1 d := mem_childNames.mpr hc
    have hs : heapOf T d = some (childNames T.1 d) := by
      unfold heapOf
      rw [if_pos (.inr (fun h0 => by rw [h0] at hm; cases hm))]
    refine ⟨k, Leads.trans ?_ hk⟩
    have h1 : Leads (heapOf T) (getP T.1 (n + 1) d c false) (.ret (some (.ok (d ++ [c])))) := by
      have : Leads (heapOf T) (childP d c) (.ret (some (.ok (d ++ [c])))) := by
        refine .read _ _ _ ?_
        rw [hs]
        refine .read _ _ _ (.read _ _ _ ?_)
        rw [hs, Option.getD_some, if_pos (List.contains_iff_mem.mpr hm)]
        exact .refl _
      exact leads_get hdd (hp c (by simp)) this
    have h2 := h1.bind (fun d => walkP (fun d c fl => getP T.1 (n + 1) d c fl) d (cs ++ [x]) false)
    cases cs with
    | nil => exact h2
    | cons c2 cs =>
      rw [List.cons_append, List.cons_append, walkP]
      · exact h2
      · simp

theorem leads_open {T : Mem} (hi : Inv false T.1) {n : Nat} {p : Path} (hp : T.1.has p) (hd : T.1.nonDir p = false) (hn : heapOf T p = none)
    {name x : Str} (hv : validPath name = true) (hc : comps name = p ++ [x]) :
    ∃ k, Leads (heapOf T) (code T.1 (n + 1) (.opens name)) (.make p k) := by
  obtain ⟨v1, _, v3, v4⟩ := valid_comps hv
  rw [hc] at v1 v3
  rw [if_neg (by simp)] at v3
  obtain ⟨k, hk⟩ := leads_walk hi (n := n) (v1 x (by simp)) p [] (fun c h => v1 c (by simp [h])) hp hd hn
  have h1 : Leads (heapOf T) (openP T.1 (n + 1) name) ((Prog.make p k).bind fun x =>
      (getP T.1 (n + 1) x ".".toList true).bind fun y => .ret (some (.ok (y, x)))) := by
    unfold openP
    rw [hv]
    simp only [Bool.not_true, Bool.false_eq_true, if_false]
    unfold fsGetP
    simp only [v4, Bool.false_eq_true, if_false, v3]
    exact hk.bind _
  exact ⟨_, h1.andThen _⟩

theorem at_self (st : State) (g : Nat) (x : Option (Call × Prog Out)) : (st.at g x).pc g = x := if_pos rfl
theorem at_other (st : State) {g i : Nat} (h : i ≠ g) (x : Option (Call × Prog Out)) : (st.at g x).pc i = st.pc i := if_neg h

theorem reach_leads {T : Mem} {n : Nat} {h : Heap} {g : Nat} {c : Call} {a b : Prog Out} (hl : Leads h a b) :
    ∀ {st : State}, Reach T n st → st.heap = h → st.pc g = some (c, a) →
      ∃ st', Reach T n st' ∧ st'.heap = h ∧ st'.pc g = some (c, b) ∧ ∀ i, i ≠ g → st'.pc i = st.pc i := by
  induction hl with
  | refl m => exact fun hr hh hp => ⟨_, hr, hh, hp, fun _ _ => rfl⟩
  | read p k m _ ih =>
    intro st hr hh hp
    obtain ⟨st', h1, h2, h3, h4⟩ := ih (Reach.read g c p k hr hp) hh (by rw [at_self, hh])
    exact ⟨st', h1, h2, h3, fun i hi => by rw [h4 i hi, at_other _ hi]⟩

theorem race_of {T : Mem} (hi : Inv false T.1) {p : Path} (hhas : T.1.has p) (hdir : T.1.nonDir p = false) (hn : heapOf T p = none)
    {name name' x x' : Str} (hv : validPath name = true) (hc : comps name = p ++ [x]) (hv' : validPath name' = true)
    (hc' : comps name' = p ++ [x']) (n : Nat) (hn1 : 1 ≤ n) : ∃ st, Reach T n st ∧ Race st := by
  obtain ⟨n, rfl⟩ : ∃ j, n = j + 1 := ⟨n - 1, by omega⟩
  obtain ⟨k, hk⟩ := leads_open hi (n := n) hhas hdir hn hv hc
  obtain ⟨k', hk'⟩ := leads_open hi (n := n) hhas hdir hn hv' hc'
  obtain ⟨s1, r1, e1, p1, q1⟩ := reach_leads hk (Reach.call 0 (.opens name) (Reach.start (T := T) (n := n + 1)) rfl) rfl (at_self _ _ _)
  have q : s1.pc 1 = none := by rw [q1 1 (by simp), at_other _ (by simp)]
  obtain ⟨s2, r2, _, p2, q2⟩ := reach_leads hk' (Reach.call 1 (.opens name') r1 q) e1 (at_self _ _ _)
  refine ⟨s2, r2, 0, 1, p, true, by simp, .inr ⟨.opens name, k, ?_, rfl⟩, .inr ⟨.opens name', k', p2, rfl⟩⟩
  rw [q2 0 (by simp), at_other _ (by simp)]
  exact p1

/-- The code violates C129.  Whenever a loaded file system has a directory that has not been given a map of children yet (as any directory
in which the layers have nothing: `exRace`), two goroutines that each open something in it, which need not exist, come to write the variable
`children` of the directory at the same time. -/
theorem C129_violated (m : Nat) (layers : List (List Entry)) (oc : Bool) (T : Mem) (hload : loadM m layers oc = some (.ok T))
    (p : Path) (hd : Header) (body : Bytes) (hp : T.1.get? p = some ⟨some hd, body⟩) (h5 : hd.typeflag = '5') (hn : heapOf T p = none)
    (name name' x x' : Str) (hv : validPath name = true) (hc : comps name = p ++ [x]) (hv' : validPath name' = true) (hc' : comps name' = p ++ [x'])
    (n : Nat) (hn1 : 1 ≤ n) : ∃ st, Reach T n st ∧ Race st := by
  have hi : Inv false T.1 := load_inv (fun h => (nomatch h)) (load_of hload)
  have hhas : T.1.has p := has_of hp
  have hdir : T.1.nonDir p = false := by unfold FS.nonDir; rw [hp]; simp [Node.nonDir, h5, typeDir]
  exact race_of hi hhas hdir hn hv hc hv' hc' n hn1

/-! ### exactly when -/

/-- there is a directory at that path -/
def Spec.DirAt (S : FS) (p : Path) : Prop := ∃ nd, S.get? p = some nd ∧ ∀ h, nd.header = some h → h.typeflag = '5'

theorem dirAt_iff {S : FS} {p : Path} : Spec.DirAt S p ↔ S.has p ∧ S.nonDir p = false := by
  unfold Spec.DirAt FS.has FS.nonDir Node.nonDir
  cases S.get? p with
  | none => simp
  | some nd =>
    obtain ⟨hd, b⟩ := nd
    cases hd with
    | none => simp
    | some h => by_cases e : h.typeflag = '5' <;> simp [typeDir, e]

/-- C129, which nodes have a map of children when `Load` returns (`T.2`): the directories with something in them, and none else but possibly
the root of a file system without anything. -/
theorem C129_maps (m : Nat) (layers : List (List Entry)) (oc : Bool) (T : Mem) (hload : loadM m layers oc = some (.ok T)) (p : Path) :
    (p ∈ T.2 → Spec.DirAt T.1 p) ∧ ((∃ c, (T.1.get? (p ++ [c])).isSome = true) → p ∈ T.2) ∧
    (p ∈ T.2 → p ≠ [] → ∃ c, (T.1.get? (p ++ [c])).isSome = true) :=
  ⟨fun hp => dirAt_iff.2 ((load_maps hload).1.dirs p hp), fun ⟨c, hc⟩ => (load_maps hload).1.made p c hc, (load_maps hload).2 p⟩

/-- **C129** (partial), exactly when there can be a race: if and only if there is a directory with nothing in it, not even a whiteout
marker.  For layers without symlinks to "/" (whose targets need have no name) that leave something. -/
theorem C129_iff_partial (m : Nat) (layers : List (List Entry)) (oc : Bool) (T : Mem) (hload : loadM m layers oc = some (.ok T))
    (hroot : ∀ l ∈ layers, ∀ e ∈ l, e.header.typeflag = '2' → clean e.header.linkname ≠ "/".toList)
    (hsome : ∃ c, (T.1.get? [c]).isSome = true) (n : Nat) (hn1 : 1 ≤ n) :
    (∃ st, Reach T n st ∧ Race st) ↔ ∃ p, Spec.DirAt T.1 p ∧ ∀ c, T.1.get? (p ++ [c]) = none := by
  have hi : Inv false T.1 := load_inv (fun h => (nomatch h)) (load_of hload)
  have hi' : Inv true T.1 := load_inv (fun _ => hroot) (load_of hload)
  obtain ⟨hm, hfl⟩ := load_maps hload
  have hheap : ∀ p, heapOf T p = none ↔ ∀ c, T.1.get? (p ++ [c]) = none := by
    intro p
    unfold heapOf
    constructor
    · intro h c
      refine Classical.byContradiction fun hc => ?_
      rw [if_pos (.inl (hm.made p c (Option.isSome_iff_ne_none.2 hc)))] at h
      cases h
    · intro hp
      rw [if_neg]
      rintro (h | h)
      · have : ∃ c, T.1.has (p ++ [c]) := by
          by_cases hne : p = []
          · subst hne; exact hsome
          · exact hfl p h hne
        obtain ⟨c, hc⟩ := this
        exact not_has.2 (hp c) hc
      · obtain ⟨c, hc⟩ := List.exists_mem_of_ne_nil _ h
        exact not_has.2 (hp c) (mem_childNames.1 hc)
  constructor
  · rintro ⟨st, h, g, g', p, w, _, h1, _⟩
    refine Classical.byContradiction fun hno => ?_
    have hf : ∀ p, T.1.has p → T.1.nonDir p = false → heapOf T p ≠ none := fun p hp hd hx =>
      hno ⟨p, dirAt_iff.2 ⟨hp, hd⟩, (hheap p).1 hx⟩
    rcases h1 with ⟨c, k, _, e⟩ | ⟨c, k, e, _⟩
    · cases e
    · exact (reach_calm hi hf h).2 g c _ e
  · rintro ⟨p, hp, hnm⟩
    have hpl' : ∀ c ∈ p ++ [['x']], Plain c := by
      intro c hc
      rcases List.mem_append.1 hc with hc | hc
      · have := hi'.keys p (dirAt_iff.1 hp).1 c hc
        exact this.1.plain (this.2 rfl)
      · rw [List.mem_singleton.1 hc]; exact ⟨by decide, by decide, by decide, by decide⟩
    have hv := Walk.validPath_render hpl'
    have hc := comps_render hpl'
    obtain ⟨hhas, hdir⟩ := dirAt_iff.1 hp
    exact race_of hi hhas hdir ((hheap p).2 hnm) hv hc hv hc n hn1

/-- a layer with a directory in which there is nothing, and a link to it -/
def exRace : List (List Entry) :=
  [[⟨⟨"srv/".toList, '5', [], 0, 0o755, []⟩, []⟩, ⟨⟨"data".toList, '2', "srv".toList, 0, 0o777, []⟩, []⟩]]

/-- what `Load` makes of it: the root has a map, the directory has none -/
def exRaceMem : Mem :=
  ([(["data".toList], ⟨some ⟨"data".toList, '2', "srv".toList, 0, 0o777, []⟩, []⟩),
    (["srv".toList], ⟨some ⟨"srv".toList, '5', [], 0, 0o755, []⟩, []⟩), ([], ⟨none, []⟩)], [[], []])

/-- the hypotheses of `C129_violated` are met, and also those of `C129_same_partial`: two goroutines look for two files in "srv" -/
example : loadM 5 exRace false = some (.ok exRaceMem) ∧ ∃ st, Reach exRaceMem 5 st ∧ Race st := by
  have h : loadM 5 exRace false = some (.ok exRaceMem) := by rfl
  exact ⟨h, C129_violated 5 exRace false exRaceMem h ["srv".toList] ⟨"srv".toList, '5', [], 0, 0o755, []⟩ [] (by decide +kernel) rfl
    (by decide +kernel) "srv/a".toList "srv/b".toList "a".toList "b".toList (by decide +kernel) (by decide +kernel) (by decide +kernel)
    (by decide +kernel) 5 (by decide)⟩

/-- the hypotheses of `C129_iff_partial` and `C129_maps` are met: nothing is in "srv", and so it has no map -/
example : (∃ st, Reach exRaceMem 5 st ∧ Race st) ∧ ["srv".toList] ∉ exRaceMem.2 := by
  have hno : ∀ c, exRaceMem.1.get? (["srv".toList] ++ [c]) = none := by
    intro c
    simp [FS.get?, exRaceMem]
  refine ⟨(C129_iff_partial 5 exRace false exRaceMem (by rfl) (by decide +kernel) ⟨"srv".toList, by decide +kernel⟩ 5 (by decide)).2
    ⟨["srv".toList], ⟨⟨some ⟨"srv".toList, '5', [], 0, 0o755, []⟩, []⟩, by decide +kernel, fun h e => by cases e; rfl⟩, hno⟩, fun h => ?_⟩
  obtain ⟨c, hc⟩ := (C129_maps 5 exRace false exRaceMem (by rfl) ["srv".toList]).2.2 h (by decide)
  rw [hno] at hc
  cases hc

/-- opening through the link gives the directory, whatever other goroutines do -/
example {st : State} (h : Reach exRaceMem 5 st) (g : Nat) (o : Out) (hr : (g, .opens "data".toList, o) ∈ st.returned) :
    o = .opened (some (.ok (["srv".toList], ["data".toList]))) :=
  (C129_same_partial 5 exRace false exRaceMem (by rfl) 5 h g _ o hr).trans (by rfl)

/-- a layer whose directories all have something in them -/
def exFull : List (List Entry) :=
  [[⟨⟨"srv/".toList, '5', [], 0, 0o755, []⟩, []⟩, ⟨⟨"srv/a".toList, '0', [], 1, 0o644, []⟩, [7]⟩]]

/-- the hypotheses of `C129_race_free_partial` are met -/
example : ∃ T, loadM 5 exFull false = some (.ok T) ∧ ∀ n st, Reach T n st → ¬ Race st := by
  refine ⟨([(["srv".toList, "a".toList], ⟨some ⟨"srv/a".toList, '0', [], 1, 0o644, []⟩, [7]⟩),
    (["srv".toList], ⟨some ⟨"srv".toList, '5', [], 0, 0o755, []⟩, []⟩), ([], ⟨none, []⟩)], [["srv".toList], [], []]), by rfl,
    fun n st h => C129_race_free_partial 5 exFull false _ (by rfl) ?_ n h⟩
  intro p nd hp h5
  have hm := List.mem_of_find?_eq_some (Option.map_eq_some_iff.mp hp).choose_spec.1
  have hk := List.find?_some (Option.map_eq_some_iff.mp hp).choose_spec.1
  have hv := (Option.map_eq_some_iff.mp hp).choose_spec.2
  generalize (Option.map_eq_some_iff.mp hp).choose = e at hm hk hv
  simp only [decide_eq_true_eq] at hk
  simp only [List.mem_cons, List.not_mem_nil, or_false] at hm
  rcases hm with rfl | rfl | rfl
  · subst hv; exact absurd (h5 _ rfl) (by decide)
  · subst hk; exact ⟨"a".toList, by decide +kernel⟩
  · subst hk; exact ⟨"srv".toList, by decide +kernel⟩

end Squash.Lazy
