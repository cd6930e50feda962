import Verif.Squash.Share
import Verif.Squash.PropsReadDir
/-! C121: goroutines that share an open file. -/
namespace Squash.Share
open Go Squash

/-! ### Specification -/
namespace Spec

/-- one call that is made while no other is: what it returns and what becomes of the handle.  `kids` are the children of the
directory. -/
def Does (srt : (DirEnt → DirEnt → Bool) → List DirEnt → List DirEnt) (kids : List (Str × Option Str × Bool)) (r : Reader) (c : Call)
    (r' : Reader) (o : Out) : Prop :=
  match c with
  | .read m => (r.read m).1 = r' ∧ o = .bytes (r.read m).2
  | .readDir n => ∃ ks, ks.Perm kids ∧ (r.readDir srt ks n).1 = r' ∧ o = .ents (r.readDir srt ks n).2
  | .close => r.close.1 = r' ∧ o = .closed r.close.2

/-- calls that are made one after the other, each with its goroutine and what it returns -/
inductive OneByOne (srt : (DirEnt → DirEnt → Bool) → List DirEnt → List DirEnt) (kids : List (Str × Option Str × Bool)) :
    Reader → List (Nat × Call × Out) → Reader → Prop
  | nil (r : Reader) : OneByOne srt kids r [] r
  | cons {r r' r'' : Reader} {g : Nat} {c : Call} {o : Out} {l : List (Nat × Call × Out)} :
      Does srt kids r c r' o → OneByOne srt kids r' l r'' → OneByOne srt kids r ((g, c, o) :: l) r''

/-- the calls of goroutine `g` -/
def calls (g : Nat) : List Event → List Call
  | [] => []
  | .call h c :: t => if h = g then c :: calls g t else calls g t
  | .ret _ _ :: t => calls g t

/-- what the calls of goroutine `g` returned -/
def rets (g : Nat) : List Event → List Out
  | [] => []
  | .call _ _ :: t => rets g t
  | .ret h o :: t => if h = g then o :: rets g t else rets g t

/-- the calls of goroutine `g` among `l` -/
def mine (g : Nat) (l : List (Nat × Call × Out)) : List (Call × Out) := (l.filter (fun x => x.1 == g)).map (·.2)

/-- The calls in `l` are calls that were made by the time `t` was seen, all that have returned among them, with what they returned:
for each goroutine in the order in which it made them. -/
def Fits (l : List (Nat × Call × Out)) (t : List Event) : Prop :=
  ∀ g, (mine g l).map (·.1) <+: calls g t ∧ rets g t <+: (mine g l).map (·.2)

/-- Linearizability: what was seen is as if the calls had been made one after the other in some order, each at a time between the
moment when it was made and that when it returned. -/
def Linearizable (srt : (DirEnt → DirEnt → Bool) → List DirEnt → List DirEnt) (kids : List (Str × Option Str × Bool)) (tgt : Node)
    (t : List Event) : Prop :=
  ∃ l r, OneByOne srt kids (freshReader tgt) l r ∧ Fits l t ∧ ∀ t', t' <+: t → ∃ l', l' <+: l ∧ Fits l' t'

/-- the pieces of the content that calls of `Read` returned -/
def pieces : List Out → List Bytes
  | [] => []
  | .bytes (.ok b) :: t => b :: pieces t
  | _ :: t => pieces t

/-- the parts of the listing that calls of `ReadDir` returned -/
def parts : List Out → List (List DirEnt)
  | [] => []
  | .ents (.ok b) :: t => b :: parts t
  | _ :: t => parts t

/-- everything that was returned, to any goroutine -/
def outs : List Event → List Out
  | [] => []
  | .call _ _ :: t => outs t
  | .ret _ o :: t => o :: outs t

/-- a call that failed -/
def Fails : Out → Prop
  | .bytes x => ∃ e, x = .error e
  | .ents x => ∃ e, x = .error e
  | .closed x => ∃ e, x = .error e

/-- a call of `Close` that succeeded -/
def closeOk : Out → Bool
  | .closed (.ok ()) => true
  | _ => false

/-- steps in which no goroutine makes a new call -/
inductive Finish (srt : (DirEnt → DirEnt → Bool) → List DirEnt → List DirEnt) (kids : List (Str × Option Str × Bool)) : State → State → Prop
  | refl (st : State) : Finish srt kids st st
  | step {st st' st'' : State} : Step srt kids st st' → (∀ g, calls g st'.trace = calls g st.trace) → Finish srt kids st' st'' →
      Finish srt kids st st''

/-- no call is under way -/
def Quiet (st : State) : Prop := ∀ g, st.pc g = .idle

end Spec

open Spec

variable {srt : (DirEnt → DirEnt → Bool) → List DirEnt → List DirEnt} {kids : List (Str × Option Str × Bool)} {tgt : Node}

/-! ### Lemmas -/

/-- the whole of the code, without interruption -/
def Code.run : Code → Reader → Reader × Out
  | .ret o, r => (r, o)
  | .getPos k, r => (k r.pos).run r
  | .getClosed k, r => (k r.closed).run r
  | .getEnts k, r => (k r.dirents).run r
  | .setPos x k, r => k.run { r with pos := x }
  | .setClosed x k, r => k.run { r with closed := x }
  | .setEnts x k, r => k.run { r with dirents := some x }

theorem access_run {k k' : Code} {r r' : Reader} (h : Access k r k' r') : k'.run r' = k.run r := by
  cases h <;> rfl

theorem access_tgt {k k' : Code} {r r' : Reader} (h : Access k r k' r') : r'.tgt = r.tgt := by
  cases h <;> rfl

theorem access_ex (k : Code) (r : Reader) : (∃ o, k = .ret o) ∨ ∃ k' r', Access k r k' r' := by
  cases k with
  | ret o => exact .inl ⟨o, rfl⟩
  | getPos k => exact .inr ⟨_, _, .getPos k r⟩
  | getClosed k => exact .inr ⟨_, _, .getClosed k r⟩
  | getEnts k => exact .inr ⟨_, _, .getEnts k r⟩
  | setPos x k => exact .inr ⟨_, _, .setPos x k r⟩
  | setClosed x k => exact .inr ⟨_, _, .setClosed x k r⟩
  | setEnts x k => exact .inr ⟨_, _, .setEnts x k r⟩

theorem tail_run (n : Int) (r : Reader) (ents : List DirEnt) (he : r.dirents = some ents) :
    (tailCode n).run r = ((r.readDirTail ents n).1, .ents (r.readDirTail ents n).2) := by
  obtain ⟨t, p, c, d⟩ := r
  have hd : d = some ents := he
  subst hd
  have key : ∀ (q : Reader) (ret : List DirEnt),
      (if n > 0 ∧ ret.length = 0 then Code.ret (.ents (.error .eof))
        else .getPos fun s => .setPos (s + ret.length) (.ret (.ents (.ok ret)))).run q =
      ((if n > 0 ∧ ret.length = 0 then (q, Except.error IOErr.eof) else ({ q with pos := q.pos + ret.length }, .ok ret)).1,
        .ents (if n > 0 ∧ ret.length = 0 then (q, Except.error IOErr.eof) else ({ q with pos := q.pos + ret.length }, .ok ret)).2) := by
    intro q ret
    by_cases h : n > 0 ∧ ret.length = 0
    · rw [if_pos h, if_pos h]; rfl
    · rw [if_neg h, if_neg h]; rfl
  unfold tailCode Reader.readDirTail
  simp only [Code.run, Option.getD_some]
  by_cases hp : p > ents.length
  · rw [if_pos hp, if_pos hp]
    exact key ⟨t, ents.length, c, some ents⟩ _
  · rw [if_neg hp, if_neg hp]
    exact key ⟨t, p, c, some ents⟩ _

theorem list_run (n : Int) (kids : List (Str × Option Str × Bool)) : ∀ (r : Reader) (acc : List DirEnt), r.dirents = some acc →
    (listCode srt n kids).run r = match listLoop kids acc with
      | (ents, false) => ({ r with dirents := some ents }, .ents (.error .other))
      | (ents, true) =>
        let ents := srt (fun a b => decide (a.name < b.name)) ents
        ((Reader.readDirTail { r with dirents := some ents } ents n).1, .ents (Reader.readDirTail { r with dirents := some ents } ents n).2) := by
  induction kids with
  | nil =>
    intro r acc h
    simp only [listCode, Code.run, h, Option.getD_some, listLoop]
    exact tail_run n _ _ rfl
  | cons x rest ih =>
    obtain ⟨key, base, follows⟩ := x
    intro r acc h
    unfold listCode listLoop
    by_cases h1 : hasPrefix key whPrefix = true
    · rw [if_pos h1, if_pos h1]; exact ih r acc h
    · rw [if_neg h1, if_neg h1]
      by_cases h2 : (!follows) = true
      · rw [if_pos h2, if_pos h2]
        simp only [Code.run]
        rw [← h]
      · rw [if_neg h2, if_neg h2]
        simp only [Code.run, h, Option.getD_some]
        exact ih { r with dirents := some _ } _ rfl

/-- a call that locks the mutex, done without interruption, is what the sequential model says -/
theorem code_does {ks : List (Str × Option Str × Bool)} (hk : ks.Perm kids) {r : Reader} {c : Call} (he : early r.tgt c = none) :
    Does srt kids r c ((code srt ks r.tgt c).run r).1 ((code srt ks r.tgt c).run r).2 := by
  cases c with
  | read m =>
    suffices h : (code srt ks r.tgt (.read m)).run r = ((r.read m).1, .bytes (r.read m).2) by
      rw [h]; exact ⟨rfl, rfl⟩
    unfold early at he
    simp only [code, readCode, Code.run, Reader.read]
    cases hh : r.tgt.header with
    | none => simp [hh] at he
    | some h =>
      simp only [hh] at he ⊢
      by_cases h1 : h.typeflag = typeDir
      · simp [h1] at he
      · by_cases h2 : (r.tgt.body.length : Int) < h.size
        · simp [h1, h2] at he
        · rw [if_neg h1, if_neg h2]
          cases hc : r.closed with
          | true => simp [Code.run]
          | false =>
            simp only [Bool.false_eq_true, if_false, Code.run]
            by_cases hp : r.pos = r.tgt.body.length
            · rw [if_pos hp, if_pos hp]; rfl
            · rw [if_neg hp, if_neg hp]; simp only [Code.run, hc]
  | readDir n =>
    refine ⟨ks, hk, ?_⟩
    suffices h : (code srt ks r.tgt (.readDir n)).run r = ((r.readDir srt ks n).1, .ents (r.readDir srt ks n).2) by
      rw [h]; exact ⟨rfl, rfl⟩
    have h1 : r.tgt.nonDir = false := by
      cases h : r.tgt.nonDir with
      | false => rfl
      | true => simp [early, h] at he
    unfold code readDirCode Reader.readDir
    simp only [Code.run, h1, Bool.false_eq_true, if_false]
    cases hc : r.closed with
    | true => simp [Code.run]
    | false =>
      simp only [Bool.false_eq_true, if_false, Code.run]
      cases hd : r.dirents with
      | some ents => exact tail_run n r ents hd
      | none =>
        simp only [Code.run]
        rw [list_run n ks { r with dirents := some [] } [] rfl]
        split <;> simp_all
  | close =>
    suffices h : (code srt ks r.tgt .close).run r = (r.close.1, .closed r.close.2) by
      rw [h]; exact ⟨rfl, rfl⟩
    unfold code closeCode Reader.close
    cases hc : r.closed <;> simp [Code.run, hc]

theorem early_does {r : Reader} {c : Call} {o : Out} (he : early r.tgt c = some o) : Does srt kids r c r o := by
  cases c with
  | read m =>
    unfold early at he
    simp only [Does, Reader.read]
    cases hh : r.tgt.header with
    | none => simp only [hh, Option.some.injEq] at he ⊢; exact ⟨trivial, he.symm⟩
    | some h =>
      simp only [hh] at he ⊢
      by_cases h1 : h.typeflag = typeDir
      · simp only [h1, if_true, Option.some.injEq] at he ⊢; exact ⟨trivial, he.symm⟩
      · by_cases h2 : (r.tgt.body.length : Int) < h.size
        · simp only [h1, h2, if_true, if_false, Option.some.injEq] at he ⊢; exact ⟨trivial, he.symm⟩
        · simp [h1, h2] at he
  | readDir n =>
    refine ⟨kids, .refl _, ?_⟩
    unfold Reader.readDir
    cases h : r.tgt.nonDir with
    | false => simp [early, h] at he
    | true =>
      simp only [early, h, if_true, Option.some.injEq] at he
      exact ⟨rfl, he.symm⟩
  | close => simp [early] at he

theorem Spec.OneByOne.snoc {r r' r'' : Reader} {l : List (Nat × Call × Out)} {g : Nat} {c : Call} {o : Out} (h : OneByOne srt kids r l r')
    (hd : Does srt kids r' c r'' o) : OneByOne srt kids r (l ++ [(g, c, o)]) r'' := by
  induction h with
  | nil r => exact .cons hd (.nil _)
  | cons h1 _ ih => exact .cons h1 (ih hd)

theorem mine_snoc (g h : Nat) (l : List (Nat × Call × Out)) (c : Call) (o : Out) :
    mine g (l ++ [(h, c, o)]) = if h = g then mine g l ++ [(c, o)] else mine g l := by
  unfold mine
  rw [List.filter_append, List.map_append]
  by_cases e : h = g
  · subst e; simp
  · simp [e]

theorem calls_append (g : Nat) (t u : List Event) : calls g (t ++ u) = calls g t ++ calls g u := by
  induction t with
  | nil => rfl
  | cons e t ih =>
    cases e with
    | call h c => simp only [List.cons_append, calls]; split <;> simp [ih]
    | ret h o => simp only [List.cons_append, calls]; exact ih

theorem rets_append (g : Nat) (t u : List Event) : rets g (t ++ u) = rets g t ++ rets g u := by
  induction t with
  | nil => rfl
  | cons e t ih =>
    cases e with
    | call h c => simp only [List.cons_append, rets]; exact ih
    | ret h o => simp only [List.cons_append, rets]; split <;> simp [ih]

/-- the call that a goroutine has made and that has not had its effect -/
def Pc.open : Pc → List Call
  | .idle => []
  | .called c => [c]
  | .waiting c => [c]
  | .inside c _ => [c]
  | .leaving _ => []

/-- what a goroutine is about to return -/
def Pc.out : Pc → List Out
  | .leaving o => [o]
  | _ => []

/-- what holds in every state that can come up, for the calls `l` that have had their effect, and the handle `r` after the last of
them -/
structure Good (srt : (DirEnt → DirEnt → Bool) → List DirEnt → List DirEnt) (kids : List (Str × Option Str × Bool)) (tgt : Node)
    (st : State) (l : List (Nat × Call × Out)) (r : Reader) : Prop where
  node : st.handle.tgt = tgt
  node' : r.tgt = tgt
  seq : OneByOne srt kids (freshReader tgt) l r
  free : st.owner = none → st.handle = r
  held : ∀ g, st.owner = some g → ∃ c k, st.pc g = .inside c k ∧ Does srt kids r c (k.run st.handle).1 (k.run st.handle).2
  only : ∀ g c k, st.pc g = .inside c k → st.owner = some g
  ready : ∀ g c, st.pc g = .waiting c → early tgt c = none
  fits : ∀ g, calls g st.trace = (mine g l).map (·.1) ++ (st.pc g).open ∧ (mine g l).map (·.2) = rets g st.trace ++ (st.pc g).out
  always : ∀ t', t' <+: st.trace → ∃ l', l' <+: l ∧ Fits l' t'

theorem Good.toFits {st : State} {l : List (Nat × Call × Out)} {r : Reader} (h : Good srt kids tgt st l r) : Fits l st.trace := fun g =>
  ⟨⟨_, (h.fits g).1.symm⟩, ⟨_, (h.fits g).2.symm⟩⟩

theorem setPc_pc (st : State) (g h : Nat) (p : Pc) : (st.setPc g p).pc h = if h = g then p else st.pc h := rfl

/-- more is seen, and `l` stays -/
theorem always_snoc {l : List (Nat × Call × Out)} {t : List Event} {e : Event} (ha : ∀ t', t' <+: t → ∃ l', l' <+: l ∧ Fits l' t')
    (hf : Fits l (t ++ [e])) : ∀ t', t' <+: t ++ [e] → ∃ l', l' <+: l ∧ Fits l' t' := by
  intro t' ht
  rcases List.prefix_concat_iff.mp ht with rfl | h
  · exact ⟨l, List.prefix_refl _, hf⟩
  · exact ha t' h

/-- one more call has its effect, and nothing more is seen -/
theorem always_more {l : List (Nat × Call × Out)} {t : List Event} {x : Nat × Call × Out} (ha : ∀ t', t' <+: t → ∃ l', l' <+: l ∧ Fits l' t') :
    ∀ t', t' <+: t → ∃ l', l' <+: l ++ [x] ∧ Fits l' t' := fun t' ht => by
  obtain ⟨l', h1, h2⟩ := ha t' ht
  exact ⟨l', h1.trans (List.prefix_append _ _), h2⟩

/-- a step that only moves goroutine `g`, from outside of the mutex to outside of it -/
theorem Good.move {st : State} {l l' : List (Nat × Call × Out)} {r : Reader} (hg : Good srt kids tgt st l r) {g : Nat} {p : Pc} {t : List Event}
    (hseq : OneByOne srt kids (freshReader tgt) l' r) (hout : ∀ c k, st.pc g ≠ .inside c k) (hp : ∀ c k, p ≠ .inside c k)
    (hw : ∀ c, p = .waiting c → early tgt c = none)
    (hfits : ∀ h, calls h t = (mine h l').map (·.1) ++ (if h = g then p else st.pc h).open ∧
      (mine h l').map (·.2) = rets h t ++ (if h = g then p else st.pc h).out)
    (ha : (∀ h, (mine h l').map (·.1) <+: calls h t ∧ rets h t <+: (mine h l').map (·.2)) → ∀ t', t' <+: t → ∃ l'', l'' <+: l' ∧ Fits l'' t') :
    Good srt kids tgt ({ st with trace := t }.setPc g p) l' r := by
  refine ⟨hg.node, hg.node', hseq, hg.free, ?_, ?_, ?_, hfits, ha (fun h => ⟨⟨_, (hfits h).1.symm⟩, ⟨_, (hfits h).2.symm⟩⟩)⟩
  · intro h ho
    obtain ⟨c', k, e1, e2⟩ := hg.held h ho
    refine ⟨c', k, ?_, e2⟩
    rw [setPc_pc, if_neg (by rintro rfl; exact hout _ _ e1)]; exact e1
  · intro h c' k hi
    rw [setPc_pc] at hi
    split at hi
    · exact absurd hi (hp _ _)
    · exact hg.only h c' k hi
  · intro h c' hi
    rw [setPc_pc] at hi
    split at hi
    · exact hw _ hi
    · exact hg.ready h c' hi

theorem reach_good {st : State} (h : Reach srt kids tgt st) : ∃ l r, Good srt kids tgt st l r := by
  induction h with
  | init =>
    refine ⟨[], freshReader tgt, rfl, rfl, .nil _, fun _ => rfl, ?_, ?_, ?_, ?_, ?_⟩
    · intro g h; cases h
    · intro g c k h; cases h
    · intro g c h; cases h
    · intro g; exact ⟨rfl, rfl⟩
    · intro t' ht
      rw [show t' = [] from List.prefix_nil.mp ht]
      exact ⟨[], List.prefix_refl _, fun g => ⟨List.prefix_refl _, List.prefix_refl _⟩⟩
  | @step st st' hr hs ih =>
    obtain ⟨l, r, hg⟩ := ih
    cases hs with
    | call g c hp =>
      refine ⟨l, r, hg.move hg.seq (by simp [hp]) (by simp) (by simp) ?_ (always_snoc hg.always)⟩
      intro h
      obtain ⟨e1, e2⟩ := hg.fits h
      rw [calls_append, rets_append, e1, e2]
      by_cases e : h = g
      · subst e; simp [calls, rets, hp, Pc.open, Pc.out]
      · have e' : ¬ g = h := fun x => e x.symm
        simp [calls, rets, e, e']
    | early g c o hp he =>
      rw [hg.node] at he
      refine ⟨l ++ [(g, c, o)], r, hg.move (t := st.trace) (hg.seq.snoc (early_does (by rw [hg.node']; exact he))) (by simp [hp]) (by simp) (by simp) ?_
        (fun _ => always_more hg.always)⟩
      intro h
      obtain ⟨e1, e2⟩ := hg.fits h
      rw [mine_snoc]
      by_cases e : h = g
      · subst e; rw [e1]; simp [e2, hp, Pc.open, Pc.out]
      · have e' : ¬ g = h := fun x => e x.symm
        rw [e1]; simp [e2, e, e']
    | go g c hp he =>
      rw [hg.node] at he
      refine ⟨l, r, hg.move (t := st.trace) hg.seq (by simp [hp]) (by simp) (by simp [he]) ?_ (fun _ => hg.always)⟩
      intro h
      obtain ⟨e1, e2⟩ := hg.fits h
      by_cases e : h = g
      · subst e; rw [e1]; simp [e2, hp, Pc.open, Pc.out]
      · rw [e1]; simp [e2, e]
    | lock g c ks hp ho hk =>
      have hr' := hg.free ho
      refine ⟨l, r, hg.node, hg.node', hg.seq, ?_, ?_, ?_, ?_, ?_, hg.always⟩
      · intro h; cases h
      · intro h e
        cases e
        refine ⟨c, _, by rw [setPc_pc, if_pos rfl], ?_⟩
        show Does srt kids r c (Code.run _ st.handle).1 (Code.run _ st.handle).2
        rw [hr']
        exact code_does hk (by rw [hg.node']; exact hg.ready g c hp)
      · intro h c' k hi
        rw [setPc_pc] at hi
        split at hi
        · rename_i e; rw [e]; rfl
        · have := hg.only h c' k hi
          rw [ho] at this; cases this
      · intro h c' hi
        rw [setPc_pc] at hi
        split at hi
        · cases hi
        · exact hg.ready h c' hi
      · intro h
        obtain ⟨e1, e2⟩ := hg.fits h
        rw [setPc_pc]
        show calls h st.trace = _ ∧ _ = rets h st.trace ++ _
        by_cases e : h = g
        · subst e; rw [e1]; simp [e2, hp, Pc.open, Pc.out]
        · rw [e1]; simp [e2, e]
    | run g c k k' r' hp ha =>
      have ho := hg.only g c k hp
      refine ⟨l, r, ?_, hg.node', hg.seq, ?_, ?_, ?_, ?_, ?_, hg.always⟩
      · show r'.tgt = tgt
        rw [access_tgt ha]; exact hg.node
      · intro h
        exact absurd (show st.owner = none from h) (by rw [ho]; simp)
      · intro h e
        have e' : st.owner = some h := e
        rw [ho] at e'
        cases e'
        refine ⟨c, k', by rw [setPc_pc, if_pos rfl], ?_⟩
        obtain ⟨c2, k2, e1, e2⟩ := hg.held g ho
        rw [hp] at e1
        cases e1
        show Does srt kids r c (k'.run r').1 (k'.run r').2
        rw [access_run ha]; exact e2
      · intro h c' k2 hi
        rw [setPc_pc] at hi
        split at hi
        · rename_i e; rw [e]; exact ho
        · exact hg.only h c' k2 hi
      · intro h c' hi
        rw [setPc_pc] at hi
        split at hi
        · cases hi
        · exact hg.ready h c' hi
      · intro h
        obtain ⟨e1, e2⟩ := hg.fits h
        rw [setPc_pc]
        show calls h st.trace = _ ∧ _ = rets h st.trace ++ _
        by_cases e : h = g
        · subst e; rw [e1]; simp [e2, hp, Pc.open, Pc.out]
        · rw [e1]; simp [e2, e]
    | unlock g c o hp =>
      have ho := hg.only g c _ hp
      obtain ⟨c2, k2, e1, e2⟩ := hg.held g ho
      rw [hp] at e1
      cases e1
      refine ⟨l ++ [(g, c, o)], st.handle, hg.node, hg.node, hg.seq.snoc e2, fun _ => rfl, ?_, ?_, ?_, ?_, always_more hg.always⟩
      · intro h e; cases e
      · intro h c' k2 hi
        rw [setPc_pc] at hi
        split at hi
        · cases hi
        · rename_i e
          have := hg.only h c' k2 hi
          rw [ho] at this
          cases this
          exact absurd rfl e
      · intro h c' hi
        rw [setPc_pc] at hi
        split at hi
        · cases hi
        · exact hg.ready h c' hi
      · intro h
        obtain ⟨e1, e2⟩ := hg.fits h
        rw [setPc_pc, mine_snoc]
        show calls h st.trace = _ ∧ _ = rets h st.trace ++ _
        by_cases e : h = g
        · subst e; rw [e1]; simp [e2, hp, Pc.open, Pc.out]
        · have e' : ¬ g = h := fun x => e x.symm
          rw [e1]; simp [e2, e, e']
    | ret g o hp =>
      refine ⟨l, r, hg.move hg.seq (by simp [hp]) (by simp) (by simp) ?_ (always_snoc hg.always)⟩
      intro h
      obtain ⟨e1, e2⟩ := hg.fits h
      rw [calls_append, rets_append, e1, e2]
      by_cases e : h = g
      · subst e; simp [calls, rets, hp, Pc.open, Pc.out]
      · have e' : ¬ g = h := fun x => e x.symm
        simp [calls, rets, e, e']

/-- lists of things with owners, of which everyone has the first ones of theirs -/
theorem perm_of_prefix {α : Type} : ∀ (t l : List (Nat × α)), (∀ g, t.filter (fun x => x.1 == g) <+: l.filter (fun x => x.1 == g)) →
    ∃ rest, l.Perm (t ++ rest) := by
  intro t
  induction t with
  | nil => intro l _; exact ⟨l, .refl _⟩
  | cons x t ih =>
    intro l h
    have hx := h x.1
    rw [List.filter_cons, if_pos (by simp)] at hx
    obtain ⟨u, hu⟩ := hx
    rw [List.cons_append] at hu
    obtain ⟨l1, l2, e1, e2, e3, e4⟩ := List.filter_eq_cons_iff.mp hu.symm
    subst e1
    obtain ⟨rest, hr⟩ := ih (l1 ++ l2) (by
      intro g
      have hg := h g
      rw [List.filter_append]
      by_cases e : x.1 = g
      · subst e
        rw [List.filter_cons, if_pos (by simp), List.filter_append, List.filter_cons, if_pos (by simp),
          List.filter_eq_nil_iff.mpr e2, List.nil_append, List.cons_prefix_cons] at hg
        rw [List.filter_eq_nil_iff.mpr e2, List.nil_append]
        exact hg.2
      · rw [List.filter_cons, if_neg (by simp [e]), List.filter_append, List.filter_cons, if_neg (by simp [e])] at hg
        exact hg)
    exact ⟨rest, List.perm_middle.trans (by rw [List.cons_append]; exact hr.cons x)⟩

/-- what was returned, with the goroutines -/
def tagged : List Event → List (Nat × Out)
  | [] => []
  | .call _ _ :: t => tagged t
  | .ret g o :: t => (g, o) :: tagged t

theorem tagged_outs (t : List Event) : (tagged t).map (·.2) = outs t := by
  induction t with
  | nil => rfl
  | cons e t ih => cases e <;> simp [tagged, outs, ih]

theorem tagged_filter (g : Nat) (t : List Event) : (tagged t).filter (fun x => x.1 == g) = (rets g t).map (fun o => (g, o)) := by
  induction t with
  | nil => rfl
  | cons e t ih =>
    cases e with
    | call h c => simpa [tagged, rets] using ih
    | ret h o =>
      simp only [tagged, rets, List.filter_cons]
      by_cases e : h = g
      · subst e; simp [ih]
      · simp [e, ih]

theorem lin_filter (g : Nat) (l : List (Nat × Call × Out)) :
    (l.map (fun x => (x.1, x.2.2))).filter (fun x => x.1 == g) = ((mine g l).map (·.2)).map (fun o => (g, o)) := by
  unfold mine
  induction l with
  | nil => rfl
  | cons x l ih =>
    simp only [List.map_cons, List.filter_cons]
    by_cases e : x.1 = g
    · subst e; simpa using ih
    · simpa [e] using ih

/-- what was returned is among the results of the calls made one by one, and is all of them when no call is under way -/
theorem Good.perm {st : State} {l : List (Nat × Call × Out)} {r : Reader} (h : Good srt kids tgt st l r) :
    ∃ rest, (l.map (·.2.2)).Perm (outs st.trace ++ rest) ∧ (Quiet st → rest = []) := by
  obtain ⟨rest, hr⟩ := perm_of_prefix (tagged st.trace) (l.map (fun x => (x.1, x.2.2))) (fun g => by
    rw [tagged_filter, lin_filter, (h.fits g).2, List.map_append]
    exact List.prefix_append _ _)
  refine ⟨rest.map (·.2), ?_, ?_⟩
  · have := hr.map (·.2)
    rw [List.map_append, tagged_outs, List.map_map] at this
    exact this
  · intro hq
    obtain ⟨rest', hr'⟩ := perm_of_prefix (l.map (fun x => (x.1, x.2.2))) (tagged st.trace) (fun g => by
      rw [tagged_filter, lin_filter, (h.fits g).2, hq g]
      simp [Pc.out])
    have e1 := hr.length_eq
    have e2 := hr'.length_eq
    rw [List.length_append] at e1 e2
    have : rest.length = 0 := by omega
    rw [List.length_eq_zero_iff.mp this]; rfl

theorem pieces_append (a b : List Out) : pieces (a ++ b) = pieces a ++ pieces b := by
  induction a with
  | nil => rfl
  | cons o a ih =>
    cases o with
    | bytes x => cases x <;> simp [pieces, ih]
    | ents x => simp [pieces, ih]
    | closed x => simp [pieces, ih]

theorem pieces_perm {a b : List Out} (h : a.Perm b) : (pieces a).Perm (pieces b) := by
  have e : ∀ l : List Out, pieces l = l.filterMap (fun o => match o with | .bytes (.ok b) => some b | _ => none) := by
    intro l
    induction l with
    | nil => rfl
    | cons o l ih =>
      cases o with
      | bytes x => cases x <;> simp [pieces, ih]
      | ents x => simp [pieces, ih]
      | closed x => simp [pieces, ih]
  rw [e, e]; exact h.filterMap _

theorem parts_append (a b : List Out) : parts (a ++ b) = parts a ++ parts b := by
  induction a with
  | nil => rfl
  | cons o a ih =>
    cases o with
    | ents x => cases x <;> simp [parts, ih]
    | bytes x => simp [parts, ih]
    | closed x => simp [parts, ih]

theorem parts_perm {a b : List Out} (h : a.Perm b) : (parts a).Perm (parts b) := by
  have e : ∀ l : List Out, parts l = l.filterMap (fun o => match o with | .ents (.ok b) => some b | _ => none) := by
    intro l
    induction l with
    | nil => rfl
    | cons o l ih =>
      cases o with
      | ents x => cases x <;> simp [parts, ih]
      | bytes x => simp [parts, ih]
      | closed x => simp [parts, ih]
  rw [e, e]; exact h.filterMap _

/-! ### C121 -/

/-- **C121**: whatever the interleaving, goroutines that share a handle see what they would if the calls were made one after the
other, each between the moment when it is made and that when it returns. -/
theorem C121_linearizable {st : State} (h : Reach srt kids tgt st) : Linearizable srt kids tgt st.trace := by
  obtain ⟨l, r, hg⟩ := reach_good h
  exact ⟨l, r, hg.seq, hg.toFits, hg.always⟩

/-- calls made one by one on a file -/
theorem file_seq {hd : Header} {body : Bytes} (h5 : hd.typeflag ≠ '5') (hs : hd.size ≤ body.length) {r0 r : Reader} {l : List (Nat × Call × Out)}
    (h : OneByOne srt kids r0 l r) (ht : r0.tgt = ⟨some hd, body⟩) (hp : r0.pos ≤ body.length) :
    r0.pos ≤ r.pos ∧ r.pos ≤ body.length ∧ (pieces (l.map (·.2.2))).flatten = (body.drop r0.pos).take (r.pos - r0.pos) ∧
    (Out.bytes (.error .eof) ∈ l.map (·.2.2) → r.pos = body.length) := by
  induction h with
  | nil r => exact ⟨Nat.le_refl _, hp, by simp [pieces], by simp⟩
  | @cons r r' r'' g c o l hd' _ ih =>
    have same : ∀ (o' : Out), r' = r → o = o' → pieces [o'] = [] → (o' = .bytes (.error .eof) → r.pos = body.length) →
        r.pos ≤ r''.pos ∧ r''.pos ≤ body.length ∧
        (pieces (((g, c, o) :: l).map (·.2.2))).flatten = (body.drop r.pos).take (r''.pos - r.pos) ∧
        (Out.bytes (.error .eof) ∈ ((g, c, o) :: l).map (·.2.2) → r''.pos = body.length) := by
      rintro o' rfl rfl hpc heof
      obtain ⟨i1, i2, i3, i4⟩ := ih ht hp
      refine ⟨i1, i2, ?_, ?_⟩
      · rw [List.map_cons, show o :: l.map (·.2.2) = [o] ++ l.map (·.2.2) from rfl, pieces_append, hpc, List.nil_append, i3]
      · intro hm
        rcases List.mem_cons.mp hm with e | e
        · have := heof e.symm; omega
        · exact i4 e
    cases c with
    | read m =>
      obtain ⟨e1, e2⟩ := hd'
      cases hc : r.closed with
      | true =>
        have hrd : r.read m = (r, .error .closed) := by
          unfold Reader.read
          rw [ht]; simp only
          rw [if_neg (show ¬ hd.typeflag = typeDir from h5), if_neg (by omega), if_pos hc]
        rw [hrd] at e1 e2
        exact same _ e1.symm e2 rfl (by intro h; cases h)
      | false =>
        have hrd := read_eq h5 hs ht hc hp m
        by_cases he : r.pos = body.length
        · rw [if_pos he] at hrd
          rw [hrd] at e1 e2
          exact same _ e1.symm e2 rfl (fun _ => he)
        · rw [if_neg he] at hrd
          rw [hrd] at e1 e2
          subst e1 e2
          obtain ⟨i1, i2, i3, i4⟩ := ih ht (by simp only; omega)
          simp only at i1 i2 i3 i4
          refine ⟨by omega, i2, ?_, ?_⟩
          · rw [List.map_cons]
            simp only [pieces, List.flatten_cons]
            rw [i3]
            by_cases hm : r.pos + m ≤ body.length
            · rw [Nat.min_eq_left hm] at i1 ⊢
              rw [show r''.pos - r.pos = m + (r''.pos - (r.pos + m)) by omega, List.take_add, List.drop_drop]
            · rw [Nat.min_eq_right (by omega)] at i1 ⊢
              rw [List.drop_eq_nil_of_le (as := body) (i := body.length) (Nat.le_refl _), List.take_nil, List.append_nil,
                List.take_of_length_le (by rw [List.length_drop]; omega), List.take_of_length_le (by rw [List.length_drop]; omega)]
          · intro hm
            rcases List.mem_cons.mp hm with e | e
            · simp at e
            · exact i4 e
    | readDir n =>
      obtain ⟨ks, _, e1, e2⟩ := hd'
      have hnd : r.tgt.nonDir = true := by rw [ht]; exact decide_eq_true h5
      have hrd : r.readDir srt ks n = (r, .error .notDir) := by unfold Reader.readDir; rw [if_pos hnd]
      rw [hrd] at e1 e2
      exact same _ e1.symm e2 rfl (by intro h; cases h)
    | close =>
      obtain ⟨e1, e2⟩ := hd'
      cases hc : r.closed with
      | true =>
        have hrd : r.close = (r, .error .closed) := by unfold Reader.close; rw [if_pos hc]
        rw [hrd] at e1 e2
        exact same _ e1.symm e2 rfl (by intro h; cases h)
      | false =>
        have hrd : r.close = ({ r with closed := true }, .ok ()) := by unfold Reader.close; rw [if_neg (by simp [hc])]
        rw [hrd] at e1 e2
        subst e1 e2
        obtain ⟨i1, i2, i3, i4⟩ := ih ht hp
        refine ⟨i1, i2, i3, ?_⟩
        intro hm
        rcases List.mem_cons.mp hm with e | e
        · simp at e
        · exact i4 e

/-- **C121**, contents: whatever goroutines do with a handle of a file whose content is in memory, every byte of the content is given
out at most once, to one of them, from the beginning on: the pieces that they got, with those that are about to be returned (none
when no call is under way), can be put together to the first part of the content, and to all of it once a `Read` has
returned EOF. -/
theorem C121_bytes {hd : Header} {body : Bytes} (h5 : hd.typeflag ≠ '5') (hs : hd.size ≤ body.length) {st : State}
    (h : Reach srt kids ⟨some hd, body⟩ st) :
    ∃ all coming : List Bytes, all.Perm (pieces (outs st.trace) ++ coming) ∧ all.flatten <+: body ∧ (Quiet st → coming = []) ∧
      (Out.bytes (.error .eof) ∈ outs st.trace → all.flatten = body) := by
  obtain ⟨l, r, hg⟩ := reach_good h
  obtain ⟨rest, hp, hq⟩ := hg.perm
  obtain ⟨h1, h2, h3, h4⟩ := file_seq h5 hs hg.seq rfl (Nat.zero_le _)
  simp only [freshReader, List.drop_zero, Nat.sub_zero] at h3
  refine ⟨pieces (l.map (·.2.2)), pieces rest, ?_, ?_, ?_, ?_⟩
  · rw [← pieces_append]; exact pieces_perm hp
  · rw [h3]; exact List.take_prefix _ _
  · intro q; rw [hq q]; rfl
  · intro he
    rw [h3, h4 (hp.mem_iff.mpr (List.mem_append_left _ he)), List.take_length]

/-- calls made one by one on a directory -/
theorem dir_seq {L : List DirEnt} (hL : ∀ ks, ks.Perm kids → ∃ l, listLoop ks [] = (l, true) ∧ srt (fun a b => decide (a.name < b.name)) l = L)
    {r0 r : Reader} {l : List (Nat × Call × Out)} (h : OneByOne srt kids r0 l r) (hd : r0.tgt.nonDir = false)
    (he : r0.dirents = some L ∨ r0.dirents = none) (hp : r0.pos ≤ L.length) :
    r0.pos ≤ r.pos ∧ r.pos ≤ L.length ∧ (parts (l.map (·.2.2))).flatten = (L.drop r0.pos).take (r.pos - r0.pos) ∧
    (Out.ents (.error .eof) ∈ l.map (·.2.2) → r.pos = L.length) := by
  induction h with
  | nil r => exact ⟨Nat.le_refl _, hp, by simp [parts], by simp⟩
  | @cons r r' r'' g c o l hd' _ ih =>
    have same : ∀ (o' : Out), r'.tgt = r.tgt → (r'.dirents = some L ∨ r'.dirents = none) → r'.pos = r.pos → o = o' → parts [o'] = [] →
        (o' = .ents (.error .eof) → r.pos = L.length) →
        r.pos ≤ r''.pos ∧ r''.pos ≤ L.length ∧
        (parts (((g, c, o) :: l).map (·.2.2))).flatten = (L.drop r.pos).take (r''.pos - r.pos) ∧
        (Out.ents (.error .eof) ∈ ((g, c, o) :: l).map (·.2.2) → r''.pos = L.length) := by
      rintro o' et ee ep rfl hpc heof
      obtain ⟨i1, i2, i3, i4⟩ := ih (by rw [et]; exact hd) ee (by rw [ep]; exact hp)
      rw [ep] at i1 i3
      refine ⟨i1, i2, ?_, ?_⟩
      · rw [List.map_cons, show o :: l.map (·.2.2) = [o] ++ l.map (·.2.2) from rfl, parts_append, hpc, List.nil_append, i3]
      · intro hm
        rcases List.mem_cons.mp hm with e | e
        · have := heof e.symm; omega
        · exact i4 e
    cases c with
    | read m =>
      obtain ⟨e1, e2⟩ := hd'
      have hrd : r.read m = (r, .error .isDir) := by
        unfold Reader.read
        cases hh : r.tgt.header with
        | none => rfl
        | some h =>
          have : h.typeflag = typeDir := by
            have := hd
            unfold Node.nonDir at this
            rw [hh] at this
            simpa using this
          simp only; rw [if_pos this]
      rw [hrd] at e1 e2
      subst e1
      exact same _ rfl he rfl e2 rfl (by intro h; cases h)
    | readDir n =>
      obtain ⟨ks, hk, e1, e2⟩ := hd'
      cases hc : r.closed with
      | true =>
        have hrd : r.readDir srt ks n = (r, .error .closed) := by unfold Reader.readDir; rw [if_neg (by simp [hd]), if_pos hc]
        rw [hrd] at e1 e2
        subst e1
        exact same _ rfl he rfl e2 rfl (by intro h; cases h)
      | false =>
        have hli : Listing srt ks L r := ⟨hd, hc, he.imp id (fun h => ⟨h, hL ks hk⟩), hp⟩
        have hrd := (readDir_eq hli n).trans (readDirTail_eq (by exact hp) n)
        by_cases hn : 0 < n
        · rw [if_pos hn] at hrd
          by_cases hx : r.pos = L.length
          · rw [if_pos (by exact hx)] at hrd
            rw [hrd] at e1 e2
            subst e1
            exact same _ rfl (.inl rfl) rfl e2 rfl (fun _ => hx)
          · rw [if_neg (by exact hx)] at hrd
            rw [hrd] at e1 e2
            subst e1 e2
            obtain ⟨i1, i2, i3, i4⟩ := ih hd (.inl rfl) (by simp only; omega)
            simp only at i1 i2 i3 i4
            refine ⟨by omega, i2, ?_, ?_⟩
            · rw [List.map_cons]
              simp only [parts, List.flatten_cons]
              rw [i3]
              by_cases hm : r.pos + n.toNat ≤ L.length
              · rw [Nat.min_eq_left hm] at i1 ⊢
                rw [show r''.pos - r.pos = n.toNat + (r''.pos - (r.pos + n.toNat)) by omega, List.take_add, List.drop_drop]
              · rw [Nat.min_eq_right (by omega)] at i1 ⊢
                rw [List.drop_eq_nil_of_le (as := L) (i := L.length) (Nat.le_refl _), List.take_nil, List.append_nil,
                  List.take_of_length_le (by rw [List.length_drop]; omega), List.take_of_length_le (by rw [List.length_drop]; omega)]
            · intro hm
              rcases List.mem_cons.mp hm with e | e
              · simp at e
              · exact i4 e
        · rw [if_neg hn] at hrd
          rw [hrd] at e1 e2
          subst e1 e2
          obtain ⟨i1, i2, i3, i4⟩ := ih hd (.inl rfl) (Nat.le_refl _)
          simp only at i1 i2 i3 i4
          refine ⟨by omega, i2, ?_, ?_⟩
          · rw [List.map_cons]
            simp only [parts, List.flatten_cons]
            rw [i3, List.drop_eq_nil_of_le (as := L) (i := L.length) (Nat.le_refl _), List.take_nil, List.append_nil,
                List.take_of_length_le (by rw [List.length_drop]; omega)]
          · intro hm
            rcases List.mem_cons.mp hm with e | e
            · simp at e
            · exact i4 e
    | close =>
      obtain ⟨e1, e2⟩ := hd'
      cases hc : r.closed with
      | true =>
        have hrd : r.close = (r, .error .closed) := by unfold Reader.close; rw [if_pos hc]
        rw [hrd] at e1 e2
        subst e1
        exact same _ rfl he rfl e2 rfl (by intro h; cases h)
      | false =>
        have hrd : r.close = ({ r with closed := true }, .ok ()) := by unfold Reader.close; rw [if_neg (by simp [hc])]
        rw [hrd] at e1 e2
        subst e1
        exact same _ rfl he rfl e2 rfl (by intro h; cases h)

/-- **C121**, listings: whatever goroutines do with a handle of a directory of a loaded file system whose links can all be followed
(as in C71), every entry is given out at most once, in order: the parts of the listing that they got, with those that are about to
be returned, can be put together to the first part of the listing of C71, and to all of it once a `ReadDir` has returned EOF. -/
theorem C121_listing (fuel : Nat) (oc : Bool) (layers : List (List Entry)) (S : FS) (hload : loadLayers fuel layers oc = some (.ok S))
    (hs : SortSlice srt) (p : Path) (nd : Node) (hdir : ∀ h, nd.header = some h → h.typeflag = '5') (n : Nat)
    (hf : ∀ c, (S.get? (p ++ [c])).isSome = true → ¬ isMarker c → ∃ y, get n S (p ++ [c]) ".".toList false true = some (.ok y))
    (order : List Str → List Str) (ho : ∀ l, (order l).Perm l) {st : State} (h : Reach srt (kidsOf n order S p) nd st) :
    ∃ L, Squash.Spec.GoodListing S p L ∧ ∃ all coming : List (List DirEnt), all.Perm (parts (outs st.trace) ++ coming) ∧ all.flatten <+: L ∧
      (Quiet st → coming = []) ∧ (Out.ents (.error .eof) ∈ outs st.trace → all.flatten = L) := by
  have hi : Inv false S := load_inv (by simp) hload
  obtain ⟨_, L, _, _, hgL⟩ := listing_good hi hs ho hf
  refine ⟨L, hgL, ?_⟩
  obtain ⟨l, r, hg⟩ := reach_good h
  obtain ⟨rest, hp, hq⟩ := hg.perm
  have hL : ∀ ks, ks.Perm (kidsOf n order S p) → ∃ l, listLoop ks [] = (l, true) ∧ srt (fun a b => decide (a.name < b.name)) l = L := by
    intro ks hk
    let o' : List Str → List Str := fun l => if l = childNames S p then ks.map (·.1) else l
    have hkids : (kidsOf n order S p).map (·.1) = order (childNames S p) := by
      unfold kidsOf
      rw [List.map_map]
      exact (List.map_congr_left (fun c _ => rfl)).trans (List.map_id _)
    have ho' : ∀ l, (o' l).Perm l := by
      intro l
      simp only [o']
      split
      · rename_i e
        rw [e]
        have := hk.map (·.1)
        rw [hkids] at this
        exact this.trans (ho _)
      · exact .refl _
    have heq : kidsOf n o' S p = ks := by
      unfold kidsOf
      simp only [o', if_true]
      rw [List.map_map]
      refine (List.map_congr_left (g := id) ?_).trans (List.map_id _)
      intro k hk'
      have := hk.mem_iff.mp hk'
      unfold kidsOf at this
      obtain ⟨c, _, rfl⟩ := List.mem_map.mp this
      rfl
    obtain ⟨l', L', e1, e2, hg'⟩ := listing_good hi hs ho' hf
    rw [heq] at e1
    exact ⟨l', e1, e2.trans (hg'.unique hgL)⟩
  have hnd : nd.nonDir = false := by
    unfold Node.nonDir
    cases hh : nd.header with
    | none => rfl
    | some h => simp [hdir h hh, typeDir]
  obtain ⟨h1, h2, h3, h4⟩ := dir_seq hL hg.seq hnd (.inr rfl) (Nat.zero_le _)
  simp only [freshReader, List.drop_zero, Nat.sub_zero] at h3
  refine ⟨parts (l.map (·.2.2)), parts rest, ?_, ?_, ?_, ?_⟩
  · rw [← parts_append]; exact parts_perm hp
  · rw [h3]; exact List.take_prefix _ _
  · intro q; rw [hq q]; rfl
  · intro he
    rw [h3, h4 (hp.mem_iff.mpr (List.mem_append_left _ he)), List.take_length]

/-- a closed handle: every call fails and changes nothing -/
theorem closed_does {r r' : Reader} {c : Call} {o : Out} (hc : r.closed = true) (h : Does srt kids r c r' o) : r' = r ∧ Fails o := by
  cases c with
  | read m =>
    obtain ⟨rfl, rfl⟩ := h
    have : ∃ e, r.read m = (r, .error e) := by
      unfold Reader.read
      split
      · exact ⟨_, rfl⟩
      · split
        · exact ⟨_, rfl⟩
        · split
          · exact ⟨_, rfl⟩
          · exact ⟨_, rfl⟩
    obtain ⟨e, he⟩ := this
    rw [he]; exact ⟨rfl, e, rfl⟩
  | readDir n =>
    obtain ⟨ks, _, rfl, rfl⟩ := h
    have : ∃ e, r.readDir srt ks n = (r, .error e) := by
      unfold Reader.readDir
      split
      · exact ⟨_, rfl⟩
      · exact ⟨_, rfl⟩
    obtain ⟨e, he⟩ := this
    rw [he]; exact ⟨rfl, e, rfl⟩
  | close =>
    obtain ⟨rfl, rfl⟩ := h
    have : r.close = (r, .error .closed) := by unfold Reader.close; rw [if_pos hc]
    rw [this]; exact ⟨rfl, _, rfl⟩

theorem closed_seq {r r' : Reader} {l : List (Nat × Call × Out)} (h : OneByOne srt kids r l r') (hc : r.closed = true) : ∀ x ∈ l, Fails x.2.2 := by
  induction h with
  | nil r => intro x hx; cases hx
  | cons hd _ ih =>
    obtain ⟨rfl, hf⟩ := closed_does hc hd
    intro x hx
    rcases List.mem_cons.mp hx with rfl | hx
    · exact hf
    · exact ih hc x hx

/-- after a successful `Close`, every call fails -/
theorem closeOk_seq {r r' : Reader} {l : List (Nat × Call × Out)} (h : OneByOne srt kids r l r') :
    ∀ a x b, l = a ++ x :: b → x.2.2 = .closed (.ok ()) → ∀ y ∈ b, Fails y.2.2 := by
  induction h with
  | nil r => intro a x b e; simp at e
  | @cons r r' r'' g c o l hd hl ih =>
    intro a x b e hx
    cases a with
    | nil =>
      obtain ⟨rfl, rfl⟩ := List.cons.inj e
      simp only at hx
      subst hx
      cases c with
      | read m => exact absurd hd.2 (by simp)
      | readDir n => obtain ⟨_, _, _, h⟩ := hd; exact absurd h (by simp)
      | close =>
        refine closed_seq hl ?_
        obtain ⟨rfl, h⟩ := hd
        unfold Reader.close at h ⊢
        split
        · rename_i e; exact e
        · rfl
    | cons z a =>
      obtain ⟨_, e⟩ := List.cons.inj e
      exact ih a x b e hx

theorem fails_not_closeOk {o : Out} (h : Fails o) : closeOk o = false := by
  cases o with
  | bytes x => rfl
  | ents x => rfl
  | closed x => obtain ⟨e, rfl⟩ := h; rfl

theorem closeOk_iff {o : Out} : closeOk o = true ↔ o = .closed (.ok ()) := by
  cases o with
  | bytes x => simp [closeOk]
  | ents x => simp [closeOk]
  | closed x => cases x <;> simp [closeOk]

theorem closeOk_count {r r' : Reader} {l : List (Nat × Call × Out)} (h : OneByOne srt kids r l r') : (l.map (·.2.2)).countP closeOk ≤ 1 := by
  induction h with
  | nil r => simp
  | @cons r r' r'' g c o l hd hl ih =>
    rw [List.map_cons, List.countP_cons]
    cases hc : closeOk o with
    | false => simpa using ih
    | true =>
      have := closeOk_seq (.cons (g := g) hd hl) [] _ _ rfl (closeOk_iff.mp hc)
      have h0 : (l.map (·.2.2)).countP closeOk = 0 := by
        rw [List.countP_eq_zero]
        intro o ho
        obtain ⟨y, hy, rfl⟩ := List.mem_map.mp ho
        rw [fails_not_closeOk (this y hy)]; simp
      simp only at h0 ⊢
      rw [h0]; simp

theorem rets_mem {t : List Event} {g : Nat} {o : Out} (h : Event.ret g o ∈ t) : o ∈ rets g t := by
  induction t with
  | nil => cases h
  | cons e t ih =>
    rcases List.mem_cons.mp h with rfl | h'
    · simp [rets]
    · cases e with
      | call k c => exact ih h'
      | ret k o' =>
        simp only [rets]
        split
        · exact List.mem_cons_of_mem _ (ih h')
        · exact ih h'

/-- **C121**, `Close`: whatever the interleaving, `Close` succeeds for at most one of the calls; and once a `Close` has returned
success (in the part `t'` of what was seen), every call that is made afterwards, by any goroutine, fails. -/
theorem C121_close {st : State} (h : Reach srt kids tgt st) :
    (outs st.trace).countP closeOk ≤ 1 ∧
    ∀ t' g, t' <+: st.trace → Event.ret g (.closed (.ok ())) ∈ t' →
      ∀ g' i o, (calls g' t').length ≤ i → (rets g' st.trace)[i]? = some o → Fails o := by
  obtain ⟨l, r, hg⟩ := reach_good h
  constructor
  · obtain ⟨rest, hp, _⟩ := hg.perm
    have h1 := hp.countP_eq closeOk
    rw [List.countP_append] at h1
    have := closeOk_count hg.seq
    omega
  · intro t' g ht hr g' i o hi ho
    obtain ⟨l', ⟨rest, hl⟩, hf⟩ := hg.always t' ht
    have hm := (hf g).2.subset (rets_mem hr)
    obtain ⟨x, hx, hxo⟩ := List.mem_map.mp hm
    unfold mine at hx
    obtain ⟨y, hy, rfl⟩ := List.mem_map.mp hx
    obtain ⟨a, b, hab⟩ := List.append_of_mem (List.mem_filter.mp hy).1
    have hall := closeOk_seq hg.seq a y (b ++ rest) (by rw [← hl, hab]; simp) hxo
    have hlen := (hf g').1.length_le
    obtain ⟨u, hu⟩ := (hg.toFits g').2
    have ho' : ((mine g' l).map (·.2))[i]? = some o := by
      rw [← hu]
      exact List.getElem?_append_left (List.getElem?_eq_some_iff.mp ho).1 |>.trans ho
    have hml : mine g' l = mine g' l' ++ mine g' rest := by
      rw [← hl]; simp [mine]
    rw [hml, List.map_append, List.getElem?_append_right (by rw [List.length_map] at hlen ⊢; omega)] at ho'
    obtain ⟨z, hz, rfl⟩ := List.mem_map.mp (List.mem_of_getElem? ho')
    unfold mine at hz
    obtain ⟨w, hw, rfl⟩ := List.mem_map.mp hz
    exact hall w (List.mem_append_right _ (List.mem_filter.mp hw).1)

theorem Spec.Finish.trans {a b c : State} (h : Finish srt kids a b) (h' : Finish srt kids b c) : Finish srt kids a c := by
  induction h with
  | refl => exact h'
  | step hs hc _ ih => exact .step hs hc (ih h')

/-- the goroutine that holds the mutex can go on until it has released it -/
theorem finish_code (g : Nat) (c : Call) (k : Code) : ∀ (st : State), st.pc g = .inside c k →
    ∃ st', Finish srt kids st st' ∧ st'.owner = none ∧ (∃ o, st'.pc g = .leaving o) ∧ ∀ h, h ≠ g → st'.pc h = st.pc h := by
  have go : ∀ (k : Code) (st : State), (∃ k' r', Access k st.handle k' r' ∧ ∀ st' : State, st'.pc g = .inside c k' →
      ∃ st'', Finish srt kids st' st'' ∧ st''.owner = none ∧ (∃ o, st''.pc g = .leaving o) ∧ ∀ h, h ≠ g → st''.pc h = st'.pc h) →
      st.pc g = .inside c k →
      ∃ st', Finish srt kids st st' ∧ st'.owner = none ∧ (∃ o, st'.pc g = .leaving o) ∧ ∀ h, h ≠ g → st'.pc h = st.pc h := by
    rintro k st ⟨k', r', ha, ih⟩ hp
    obtain ⟨st'', h1, h2, h3, h4⟩ := ih ({ st with handle := r' }.setPc g (.inside c k')) (by simp [setPc_pc])
    refine ⟨st'', .step (.run st g c k k' r' hp ha) (fun _ => rfl) h1, h2, h3, ?_⟩
    intro h hh
    rw [h4 h hh, setPc_pc, if_neg hh]
  induction k with
  | ret o =>
    intro st hp
    refine ⟨_, .step (.unlock st g c o hp) (fun _ => rfl) (.refl _), rfl, ⟨o, by simp [setPc_pc]⟩, ?_⟩
    intro h hh
    rw [setPc_pc, if_neg hh]
  | getPos k ih => exact fun st => go _ st ⟨_, _, .getPos k _, fun st' => ih _ st'⟩
  | getClosed k ih => exact fun st => go _ st ⟨_, _, .getClosed k _, fun st' => ih _ st'⟩
  | getEnts k ih => exact fun st => go _ st ⟨_, _, .getEnts k _, fun st' => ih _ st'⟩
  | setPos x k ih => exact fun st => go _ st ⟨_, _, .setPos x k _, fun st' => ih st'⟩
  | setClosed x k ih => exact fun st => go _ st ⟨_, _, .setClosed x k _, fun st' => ih st'⟩
  | setEnts x k ih => exact fun st => go _ st ⟨_, _, .setEnts x k _, fun st' => ih st'⟩

theorem finish_ret (g : Nat) (o : Out) (st : State) (hp : st.pc g = .leaving o) :
    ∃ st', Finish srt kids st st' ∧ st'.owner = st.owner ∧ st'.pc g = .idle ∧ ∀ h, h ≠ g → st'.pc h = st.pc h := by
  refine ⟨_, .step (.ret st g o hp) (fun h => ?_) (.refl _), rfl, by simp [setPc_pc], fun h hh => by rw [setPc_pc, if_neg hh]⟩
  simp [State.setPc, calls_append, calls]

/-- when the mutex is free, a goroutine can go on until its call has returned -/
theorem finish_one (g : Nat) (st : State) (ho : st.owner = none) (hi : ∀ c k, st.pc g ≠ .inside c k) :
    ∃ st', Finish srt kids st st' ∧ st'.owner = none ∧ st'.pc g = .idle ∧ ∀ h, h ≠ g → st'.pc h = st.pc h := by
  have wait : ∀ (c : Call) (st : State), st.owner = none → st.pc g = .waiting c →
      ∃ st', Finish srt kids st st' ∧ st'.owner = none ∧ st'.pc g = .idle ∧ ∀ h, h ≠ g → st'.pc h = st.pc h := by
    intro c st ho hp
    obtain ⟨s1, a1, a2, ⟨o, a3⟩, a4⟩ := finish_code (srt := srt) (kids := kids) g c _
      ({ st with owner := some g }.setPc g (.inside c (code srt kids st.handle.tgt c))) (by simp [setPc_pc]; rfl)
    obtain ⟨s2, b1, b2, b3, b4⟩ := finish_ret (srt := srt) (kids := kids) g o s1 a3
    refine ⟨s2, .step (.lock st g c kids hp ho (.refl _)) (fun _ => rfl) (a1.trans b1), b2.trans a2, b3, ?_⟩
    intro h hh
    rw [b4 h hh, a4 h hh, setPc_pc, if_neg hh]
  cases hp : st.pc g with
  | idle => exact ⟨st, .refl _, ho, hp, fun _ _ => rfl⟩
  | called c =>
    cases he : early st.handle.tgt c with
    | some o =>
      obtain ⟨s2, b1, b2, b3, b4⟩ := finish_ret (srt := srt) (kids := kids) g o (st.setPc g (.leaving o)) (by simp [setPc_pc])
      refine ⟨s2, .step (.early st g c o hp he) (fun _ => rfl) b1, b2.trans ho, b3, ?_⟩
      intro h hh
      rw [b4 h hh, setPc_pc, if_neg hh]
    | none =>
      obtain ⟨s2, b1, b2, b3, b4⟩ := wait c (st.setPc g (.waiting c)) ho (by simp [setPc_pc])
      refine ⟨s2, .step (.go st g c hp he) (fun _ => rfl) b1, b2, b3, ?_⟩
      intro h hh
      rw [b4 h hh, setPc_pc, if_neg hh]
  | waiting c => exact wait c st ho hp
  | inside c k => exact absurd hp (hi c k)
  | leaving o =>
    obtain ⟨s2, b1, b2, b3, b4⟩ := finish_ret (srt := srt) (kids := kids) g o st hp
    exact ⟨s2, b1, b2.trans ho, b3, b4⟩

theorem finish_all (gs : List Nat) : ∀ (st : State), st.owner = none → (∀ g c k, st.pc g ≠ .inside c k) → (∀ g, g ∉ gs → st.pc g = .idle) →
    ∃ st', Finish srt kids st st' ∧ Quiet st' := by
  induction gs with
  | nil => intro st _ _ h; exact ⟨st, .refl _, fun g => h g (by simp)⟩
  | cons g gs ih =>
    intro st ho hi hg
    obtain ⟨s1, a1, a2, a3, a4⟩ := finish_one (srt := srt) (kids := kids) g st ho (hi g)
    obtain ⟨s2, b1, b2⟩ := ih s1 a2
      (by
        intro h c k
        by_cases e : h = g
        · rw [e, a3]; simp
        · rw [a4 h e]; exact hi h c k)
      (by
        intro h hh
        by_cases e : h = g
        · rw [e, a3]
        · rw [a4 h e]; exact hg h (by simp [e, hh]))
    exact ⟨s2, a1.trans b1, b2⟩

/-- only finitely many goroutines are in a call -/
theorem reach_finite {st : State} (h : Reach srt kids tgt st) : ∃ gs : List Nat, ∀ g, g ∉ gs → st.pc g = .idle := by
  induction h with
  | init => exact ⟨[], fun _ _ => rfl⟩
  | step _ hs ih =>
    obtain ⟨gs, hgs⟩ := ih
    have key : ∀ (s : State) (g : Nat) (p : Pc), (∀ h, h ∉ gs → s.pc h = .idle) → ∃ gs : List Nat, ∀ h, h ∉ gs → (s.setPc g p).pc h = .idle := by
      intro s g p hh
      refine ⟨g :: gs, fun h hn => ?_⟩
      rw [setPc_pc, if_neg (fun e => hn (by simp [e]))]
      exact hh h (fun e => hn (by simp [e]))
    cases hs <;> exact key _ _ _ hgs

/-- **C121**, no deadlock: in every state that can come up, the calls that are under way can go on, without any new call, until all
have returned. -/
theorem C121_no_deadlock {st : State} (h : Reach srt kids tgt st) : ∃ st', Finish srt kids st st' ∧ Quiet st' := by
  obtain ⟨gs, hgs⟩ := reach_finite h
  obtain ⟨l, r, hg⟩ := reach_good h
  cases ho : st.owner with
  | none => exact finish_all gs st ho (fun g c k e => by have := hg.only g c k e; rw [ho] at this; cases this) hgs
  | some g =>
    obtain ⟨c, k, hp, _⟩ := hg.held g ho
    obtain ⟨s1, a1, a2, ⟨o, a3⟩, a4⟩ := finish_code (srt := srt) (kids := kids) g c k st hp
    have hin : ∀ h c k, s1.pc h ≠ .inside c k := by
      intro h c' k' e
      by_cases hh : h = g
      · rw [hh, a3] at e; cases e
      · rw [a4 h hh] at e
        have := hg.only h c' k' e
        rw [ho] at this
        exact hh (Option.some.inj this).symm
    obtain ⟨s2, b1, b2⟩ := finish_all (srt := srt) (kids := kids) (g :: gs) s1 a2 hin (by
      intro h hn
      rw [a4 h (fun e => hn (by simp [e]))]
      exact hgs h (fun e => hn (by simp [e])))
    exact ⟨s2, a1.trans b1, b2⟩

/-! ### An execution -/

/-- the next access, computed -/
def Code.next : Code → Reader → Code × Reader
  | .ret o, r => (.ret o, r)
  | .getPos k, r => (k r.pos, r)
  | .getClosed k, r => (k r.closed, r)
  | .getEnts k, r => (k r.dirents, r)
  | .setPos x k, r => (k, { r with pos := x })
  | .setClosed x k, r => (k, { r with closed := x })
  | .setEnts x k, r => (k, { r with dirents := some x })

/-- the next step of goroutine `g`, if it can make one; when it is between two calls, it calls `c` -/
def next (srt : (DirEnt → DirEnt → Bool) → List DirEnt → List DirEnt) (kids : List (Str × Option Str × Bool)) (st : State) (g : Nat) (c : Call) : State :=
  match st.pc g with
  | .idle => { st with trace := st.trace ++ [Event.call g c] }.setPc g (.called c)
  | .called c => match early st.handle.tgt c with
    | some o => st.setPc g (.leaving o)
    | none => st.setPc g (.waiting c)
  | .waiting c => if st.owner.isSome then st else { st with owner := some g }.setPc g (.inside c (code srt kids st.handle.tgt c))
  | .inside _ (.ret o) => { st with owner := none }.setPc g (.leaving o)
  | .inside c k => { st with handle := (k.next st.handle).2 }.setPc g (.inside c (k.next st.handle).1)
  | .leaving o => { st with trace := st.trace ++ [Event.ret g o] }.setPc g .idle

theorem next_reach {st : State} (h : Reach srt kids tgt st) (g : Nat) (c : Call) : Reach srt kids tgt (next srt kids st g c) := by
  unfold next
  split
  · rename_i e; exact .step h (.call st g c e)
  · rename_i c' e
    split
    · rename_i o eo; exact .step h (.early st g c' o e eo)
    · rename_i eo; exact .step h (.go st g c' e eo)
  · rename_i c' e
    split
    · exact h
    · rename_i eo
      exact .step h (.lock st g c' kids e (by simpa using eo) (.refl _))
  · rename_i c' o e; exact .step h (.unlock st g c' o e)
  · rename_i c' k hk e
    refine .step h (.run st g c' k _ _ e ?_)
    cases k with
    | ret o => exact (hk o rfl).elim
    | getPos k => exact .getPos k _
    | getClosed k => exact .getClosed k _
    | getEnts k => exact .getEnts k _
    | setPos x k => exact .setPos x k _
    | setClosed x k => exact .setClosed x k _
    | setEnts x k => exact .setEnts x k _
  · rename_i o e; exact .step h (.ret st g o e)

/-- the goroutines step in the given order -/
def schedule (srt : (DirEnt → DirEnt → Bool) → List DirEnt → List DirEnt) (kids : List (Str × Option Str × Bool)) : State → List (Nat × Call) → State
  | st, [] => st
  | st, (g, c) :: t => schedule srt kids (next srt kids st g c) t

theorem schedule_reach (l : List (Nat × Call)) : ∀ {st : State}, Reach srt kids tgt st → Reach srt kids tgt (schedule srt kids st l) := by
  induction l with
  | nil => exact fun h => h
  | cons x l ih => exact fun h => ih (next_reach h x.1 x.2)

/-- a file of three bytes -/
def exNode : Node := ⟨some { name := "f".toList, typeflag := '0', linkname := [], size := 3, mode := 0o644, other := [] }, [1, 2, 3]⟩

/-- Goroutine 0 calls `Read` of two bytes, and then 1 does, which is the first to lock the mutex; 0 waits until 1 has unlocked it, and
returns before 1 does.  Then 0 calls `Read` again, and 1 closes the handle before 0 has locked the mutex. -/
def exTurns : List (Nat × Call) :=
  [(0, .read 2), (1, .read 2), (0, .read 2), (1, .read 2), (1, .read 2), (0, .read 2)] ++
  (List.replicate 6 [(1, Call.close), (0, .read 2)]).flatten ++ List.replicate 9 (0, Call.read 2) ++
  List.replicate 8 (1, Call.close) ++ List.replicate 4 (0, Call.read 2)

/-- what is seen in it: 1 gets the first two bytes and 0 the last one -/
example : (schedule (fun _ l => l) [] (init exNode) exTurns).trace =
    [.call 0 (.read 2), .call 1 (.read 2), .ret 0 (.bytes (.ok [3])), .call 0 (.read 2), .ret 1 (.bytes (.ok [1, 2])),
      .call 1 .close, .ret 1 (.closed (.ok ())), .ret 0 (.bytes (.error .closed))] := by
  rfl

/-- the theorems speak about this execution -/
example : ∃ st, Reach (fun _ l => l) [] exNode st ∧ outs st.trace =
    [.bytes (.ok [3]), .bytes (.ok [1, 2]), .closed (.ok ()), .bytes (.error .closed)] :=
  ⟨_, schedule_reach exTurns .init, rfl⟩

/-- C121_bytes about it -/
example : ∃ all coming : List Bytes, all.Perm ([[3], [1, 2]] ++ coming) ∧ all.flatten <+: [1, 2, 3] :=
  have ⟨all, coming, h1, h2, _⟩ := C121_bytes (srt := fun _ l => l) (kids := [])
    (hd := { name := "f".toList, typeflag := '0', linkname := [], size := 3, mode := 0o644, other := [] }) (body := [1, 2, 3])
    (by decide) (by decide) (st := schedule (fun _ l => l) [] (init exNode) exTurns) (schedule_reach exTurns .init)
  ⟨all, coming, h1, h2⟩

/-- two goroutines call `ReadDir` in turns, on the directory of the example of C71, which meets the hypotheses of `C121_listing` -/
example : (match loadLayers 9 [[exFile "d/b" [1], exLink "d/a" "b", exFile "d/c/x" [], exFile "d/.wh.z" []]] false with
    | some (.ok S) =>
      (childNames S ["d".toList]).all (fun c =>
        match get 9 S (["d".toList] ++ [c]) ".".toList false true with | some (.ok _) => true | _ => false) &&
      decide (parts (outs (schedule insertionSort (kidsOf 9 id S ["d".toList]) (init ⟨none, []⟩)
          (List.replicate 40 [(0, Call.readDir 1), (1, Call.readDir 2)]).flatten).trace) =
        [[⟨"a".toList, false⟩], [⟨"b".toList, false⟩, ⟨"c".toList, true⟩]])
    | _ => false) = true := by decide +kernel

end Squash.Share
