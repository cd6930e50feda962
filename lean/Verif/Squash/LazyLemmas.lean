import Verif.Squash.Lazy
import Verif.Squash.PropsTree
import Verif.Squash.PropsView
/-! Lemmas on Lazy.lean: which maps there are changes nothing for what a lookup returns. -/
namespace Squash.Lazy
open Go Squash

/-! ### the nodes are those of Model.lean -/

/-- forget the maps -/
def erase {α : Type} (x : Res (Mem × α)) : Res (FS × α) := x.bind fun y => some (.ok (y.1.1, y.2))
def erase1 (x : Res Mem) : Res FS := x.bind fun y => some (.ok y.1)

theorem erase_bind {α β : Type} {x : Res (Mem × α)} {x' : Res (FS × α)} (h : erase x = x') {f : Mem × α → Res (Mem × β)}
    {f' : FS × α → Res (FS × β)} (hf : ∀ y, erase (f y) = f' (y.1.1, y.2)) : erase (x.bind f) = x'.bind f' := by
  subst h
  match x with
  | none => rfl
  | some (.error e) => rfl
  | some (.ok a) => exact hf a

theorem erase1_bind {α : Type} {x : Res (Mem × α)} {x' : Res (FS × α)} (h : erase x = x') {f : Mem × α → Res Mem}
    {f' : FS × α → Res FS} (hf : ∀ y, erase1 (f y) = f' (y.1.1, y.2)) : erase1 (x.bind f) = x'.bind f' := by
  subst h
  match x with
  | none => rfl
  | some (.error e) => rfl
  | some (.ok a) => exact hf a

theorem erase_bind1 {β : Type} {x : Res Mem} {x' : Res FS} (h : erase1 x = x') {f : Mem → Res (Mem × β)}
    {f' : FS → Res (FS × β)} (hf : ∀ y, erase (f y) = f' y.1) : erase (x.bind f) = x'.bind f' := by
  subst h
  match x with
  | none => rfl
  | some (.error e) => rfl
  | some (.ok a) => exact hf a

theorem erase1_bind1 {x : Res Mem} {x' : Res FS} (h : erase1 x = x') {f : Mem → Res Mem}
    {f' : FS → Res FS} (hf : ∀ y, erase1 (f y) = f' y.1) : erase1 (x.bind f) = x'.bind f' := by
  subst h
  match x with
  | none => rfl
  | some (.error e) => rfl
  | some (.ok a) => exact hf a

theorem walk_erase {g : Mem → Path → Str → Bool → Res (Mem × Path)} {g' : FS → Path → Str → Bool → Res (FS × Path)}
    (h : ∀ T d c fl, erase (g T d c fl) = g' T.1 d c fl) (fl : Bool) :
    ∀ (cs : List Str) (T : Mem) (d : Path), erase (walkM g T d cs fl) = walk g' T.1 d cs fl
  | [], _, _ => rfl
  | [c], T, d => h T d c fl
  | c :: c2 :: cs, T, d => by
    rw [walkM, walk]
    · exact erase_bind (h T d c false) fun y => walk_erase h fl (c2 :: cs) y.1 y.2
    · simp
    · simp

theorem fsGet_erase {g : Mem → Path → Str → Bool → Res (Mem × Path)} {g' : FS → Path → Str → Bool → Res (FS × Path)}
    (h : ∀ T d c fl, erase (g T d c fl) = g' T.1 d c fl) (T : Mem) (d : Path) (l : Str) (fl : Bool) :
    erase (fsGetWithM g T d l fl) = fsGetWith g' T.1 d l fl := by
  unfold fsGetWithM fsGetWith
  simp only
  split
  · exact walk_erase h fl _ _ _
  · exact walk_erase h fl _ _ _

theorem resolve_erase {g : Mem → Path → Str → Res (Mem × Path)} {g' : FS → Path → Str → Res (FS × Path)}
    (h : ∀ T d l, erase (g T d l) = g' T.1 d l) :
    ∀ (k : Nat) (T : Mem) (st : List Path) (r : Path), erase (resolveM g k T st r) = resolve g' k T.1 st r
  | 0, _, _, _ => rfl
  | k + 1, T, st, r => by
    rw [resolveM, resolve]
    cases T.1.link r with
    | none => rfl
    | some lnk =>
      simp only
      split
      · rfl
      · exact erase_bind (h T _ _) fun y => resolve_erase h k y.1 _ y.2

theorem enter_erase {g : Mem → Path → Str → Res (Mem × Path)} {g' : FS → Path → Str → Res (FS × Path)}
    (h : ∀ T d l, erase (g T d l) = g' T.1 d l) (T : Mem) (f : Path) : erase (enterM g T f) = enter g' T.1 f := by
  unfold enterM enter
  cases T.1.link f with
  | none => rfl
  | some lnk => exact h T _ _

theorem makeDir_erase {g : Mem → Path → Res (Mem × Path)} {g' : FS → Path → Res (FS × Path)}
    (h : ∀ T d, erase (g T d) = g' T.1 d) (create : Bool) (T : Mem) (f : Path) : erase1 (makeDirM g create T f) = makeDir g' create T.1 f := by
  unfold makeDirM makeDir
  split
  · split
    · rfl
    · exact erase1_bind (h _ _) fun y => rfl
  · rfl

theorem child_erase (create : Bool) (T : Mem) (f : Path) (c : Str) : erase (childM create T f c) = child create T.1 f c := by
  unfold childM
  match child create T.1 f c with
  | none => rfl
  | some (.error e) => rfl
  | some (.ok a) => rfl

theorem get_erase : ∀ (n : Nat) (T : Mem) (f : Path) (c : Str) (create follow : Bool),
    erase (getM n T f c create follow) = get n T.1 f c create follow
  | 0, _, _, _, _, _ => rfl
  | n + 1, T, f, c, create, follow => by
    rw [getM, get]
    have hfg : ∀ fl T d l, erase (fsGetWithM (fun T d c fl => getM n T d c create fl) T d l fl) =
        fsGetWith (fun S d c fl => get n S d c create fl) T.1 d l fl :=
      fun fl T d l => fsGet_erase (fun T d c fl => get_erase n T d c create fl) T d l fl
    refine erase_bind ?_ ?_
    · split
      · rfl
      · split
        · rfl
        · exact erase_bind (enter_erase (hfg true) T f) fun y =>
            erase_bind1 (makeDir_erase (fun T d => get_erase n T d _ _ _) create y.1 y.2) fun T => child_erase create T y.2 c
    · intro y
      split
      · exact resolve_erase (hfg false) n y.1 [] y.2
      · rfl

theorem set_erase (n : Nat) (T : Mem) (f : Path) (hdr : Header) (body : Bytes) : erase1 (setM n T f hdr body) = set n T.1 f hdr body := by
  unfold setM set
  split
  · rfl
  · split
    · exact erase1_bind (get_erase n _ _ _ _ _) fun y => rfl
    · rfl

theorem addEntry_erase (n : Nat) (T : Mem) (e : Entry) : erase1 (addEntryM n T e) = addEntry n T.1 e := by
  unfold addEntryM addEntry fsGet
  exact erase1_bind (fsGet_erase (fun T d c fl => get_erase n T d c true fl) T _ _ _) fun y => set_erase n y.1 y.2 _ _

theorem addEntries_erase (n : Nat) : ∀ (es : List Entry) (T : Mem), erase1 (addEntriesM n T es) = addEntries n T.1 es
  | [], _ => rfl
  | e :: es, T => by
    rw [addEntriesM, addEntries]
    exact erase1_bind1 (addEntry_erase n T e) fun T => addEntries_erase n es T

theorem loadFrom_erase (n : Nat) (oc : Bool) : ∀ (ls : List (List Entry)) (T : Mem), erase1 (loadFromM n oc T ls) = loadFrom n oc T.1 ls
  | [], _ => rfl
  | l :: ls, T => by
    rw [loadFromM, loadFrom]
    cases parseLayer oc l with
    | error x => rfl
    | ok y => exact erase1_bind1 (addEntries_erase n _ T) fun T => erase1_bind1 (addEntries_erase n _ T) fun T => loadFrom_erase n oc ls T

theorem load_erase (n : Nat) (layers : List (List Entry)) (oc : Bool) : erase1 (loadM n layers oc) = loadLayers n layers oc :=
  loadFrom_erase n oc layers _

theorem load_of {n : Nat} {layers : List (List Entry)} {oc : Bool} {T : Mem} (h : loadM n layers oc = some (.ok T)) :
    loadLayers n layers oc = some (.ok T.1) := by
  rw [← load_erase, h]; rfl

/-! ### lookups do not depend on the maps -/

/-- the variable may have this value: nil only if there are no children -/
def Fits (S : FS) (p : Path) (v : Option (List Str)) : Prop := v = some (childNames S p) ∨ v = none ∧ childNames S p = []

/-- whatever the goroutine reads, if it fits the nodes, it ends with `r`, and gives a map only to what has no children -/
def Good {α : Type} (S : FS) (r : α) : Prog α → Prop
  | .ret a => a = r
  | .read p k => ∀ v, Fits S p v → Good S r (k v)
  | .make p k => childNames S p = [] ∧ Good S r k

theorem good_bind {α β : Type} {S : FS} {r : Res α} {f : α → Prog (Res β)} {r' : α → Res β} :
    ∀ {m : Prog (Res α)}, Good S r m → (∀ a, r = some (.ok a) → Good S (r' a) (f a)) → Good S (Res.bind r r') (m.bind f)
  | .ret none, h, _ => by
    have h : none = r := h
    subst h; exact rfl
  | .ret (some (.error _)), h, _ => by
    have h : some _ = r := h
    subst h; exact rfl
  | .ret (some (.ok a)), h, hf => by
    have h : some _ = r := h
    subst h; exact hf a rfl
  | .read _ k, h, hf => fun v hv => good_bind (m := k v) (h v hv) hf
  | .make _ k, h, hf => ⟨h.1, good_bind (m := k) h.2 hf⟩

theorem good_andThen {α β : Type} {S : FS} {r : α} {f : α → Prog β} {r' : β} :
    ∀ {m : Prog α}, Good S r m → Good S r' (f r) → Good S r' (m.andThen f)
  | .ret a, h, hf => by
    have h : a = r := h
    subst h; exact hf
  | .read _ k, h, hf => fun v hv => good_andThen (m := k v) (h v hv) hf
  | .make _ k, h, hf => ⟨h.1, good_andThen (m := k) h.2 hf⟩

/-- the lookup `m` does what the lookup of Model.lean with the result `x` does, which leaves the nodes as they are -/
def Sim {α : Type} (S : FS) (m : Prog (Res α)) (x : Res (FS × α)) : Prop :=
  ∃ r : Res α, x = r.bind (fun a => some (.ok (S, a))) ∧ Good S r m

theorem sim_ok {α : Type} {S : FS} (a : α) : Sim S (.ret (some (.ok a))) (some (.ok (S, a))) := ⟨some (.ok a), rfl, rfl⟩
theorem sim_err {α : Type} {S : FS} : Sim (α := α) S (.ret (some (.error ()))) (some (.error ())) := ⟨some (.error ()), rfl, rfl⟩
theorem sim_none {α : Type} {S : FS} : Sim (α := α) S (.ret none) none := ⟨none, rfl, rfl⟩

theorem sim_bind {α β : Type} {S : FS} {m : Prog (Res α)} {x : Res (FS × α)} {f : α → Prog (Res β)} {g : FS × α → Res (FS × β)}
    (h : Sim S m x) (hf : ∀ a, Sim S (f a) (g (S, a))) : Sim S (m.bind f) (x.bind g) := by
  obtain ⟨r, rfl, hg⟩ := h
  refine ⟨r.bind fun a => (hf a).choose, ?_, good_bind hg fun a _ => (hf a).choose_spec.2⟩
  match r with
  | none => rfl
  | some (.error _) => rfl
  | some (.ok a) => exact (hf a).choose_spec.1

theorem sim_child {S : FS} (f : Path) (c : Str) : Sim S (childP f c) (child false S f c) := by
  have hm : ∀ v, Fits S f v → ((v.getD []).contains c = true ↔ S.has (f ++ [c])) := by
    intro v hv
    rw [← mem_childNames, List.contains_iff_mem]
    rcases hv with rfl | ⟨rfl, h⟩
    · rfl
    · rw [h]; rfl
  refine ⟨if S.has (f ++ [c]) then some (.ok (f ++ [c])) else some (.error ()), ?_, ?_⟩
  · unfold child
    by_cases h : S.has (f ++ [c])
    · rw [if_pos h]
      obtain ⟨nd, e⟩ := Option.isSome_iff_exists.mp h
      rw [e]; rfl
    · rw [if_neg h, not_has.mp h]; rfl
  · have hfind : Good S (if S.has (f ++ [c]) then some (.ok (f ++ [c])) else some (.error ()))
        (.read f fun _ => .read f fun v => .ret (if (v.getD []).contains c then some (.ok (f ++ [c])) else some (.error ())) : Prog (Res Path)) := by
      intro _ _ v hv
      show (_ : Res Path) = _
      by_cases h : S.has (f ++ [c])
      · rw [if_pos h, if_pos ((hm v hv).mpr h)]
      · rw [if_neg h, if_neg (fun h2 => h ((hm v hv).mp h2))]
    intro v hv
    rcases hv with rfl | ⟨rfl, h⟩
    · exact hfind
    · exact ⟨h, hfind⟩

theorem sim_walk {S : FS} {g : Path → Str → Bool → Prog (Res Path)} {g' : FS → Path → Str → Bool → Res (FS × Path)}
    (h : ∀ d c fl, Sim S (g d c fl) (g' S d c fl)) (fl : Bool) :
    ∀ (cs : List Str) (d : Path), Sim S (walkP g d cs fl) (walk g' S d cs fl)
  | [], d => sim_ok d
  | [c], d => h d c fl
  | c :: c2 :: cs, d => by
    rw [walkP, walk]
    · exact sim_bind (h d c false) fun d => sim_walk h fl (c2 :: cs) d
    · simp
    · simp

theorem sim_fsGet {S : FS} {g : Path → Str → Bool → Prog (Res Path)} {g' : FS → Path → Str → Bool → Res (FS × Path)}
    (h : ∀ d c fl, Sim S (g d c fl) (g' S d c fl)) (d : Path) (l : Str) (fl : Bool) :
    Sim S (fsGetP g d l fl) (fsGetWith g' S d l fl) := by
  unfold fsGetP fsGetWith
  simp only
  split
  · exact sim_walk h fl _ _
  · exact sim_walk h fl _ _

theorem sim_resolve {S : FS} {g : Path → Str → Prog (Res Path)} {g' : FS → Path → Str → Res (FS × Path)}
    (h : ∀ d l, Sim S (g d l) (g' S d l)) : ∀ (k : Nat) (st : List Path) (r : Path), Sim S (resolveP S g k st r) (resolve g' k S st r)
  | 0, _, _ => sim_none
  | k + 1, st, r => by
    rw [resolveP, resolve]
    cases S.link r with
    | none => exact sim_ok r
    | some lnk =>
      simp only
      split
      · exact sim_err
      · exact sim_bind (h _ _) fun x => sim_resolve h k _ x

theorem sim_get {S : FS} : ∀ (n : Nat) (f : Path) (c : Str) (follow : Bool), Sim S (getP S n f c follow) (get n S f c false follow)
  | 0, _, _, _ => sim_none
  | n + 1, f, c, follow => by
    rw [getP, get]
    have hfg : ∀ fl d l, Sim S (fsGetP (fun d c fl => getP S n d c fl) d l fl) (fsGetWith (fun S d c fl => get n S d c false fl) S d l fl) :=
      fun fl d l => sim_fsGet (fun d c fl => sim_get n d c fl) d l fl
    refine sim_bind ?_ ?_
    · split
      · exact sim_ok _
      · split
        · exact sim_ok _
        · refine sim_bind (x := enter _ S f) ?_ ?_
          · unfold enterP enter
            cases S.link f with
            | none => exact sim_ok f
            | some lnk => exact hfg true _ _
          · intro a
            unfold makeDir
            simp only
            by_cases hd : S.nonDir a = true
            · simp only [if_pos hd]; exact sim_err
            · simp only [if_neg hd]; exact sim_child a c
    · intro a
      split
      · exact sim_resolve (hfg false) n [] a
      · exact sim_ok a

theorem good_open {S : FS} (n : Nat) (name : Str) : Good S (openFile n S name) (openP S n name) := by
  unfold openP openFile
  split
  · exact rfl
  · have h1 := sim_fsGet (S := S) (g' := fun S d c fl => get n S d c false fl) (fun d c fl => sim_get n d c fl) [] name false
    obtain ⟨r, e1, h1⟩ := h1
    unfold fsGet
    rw [e1]
    have : (Res.bind (Res.bind r fun a => some (.ok (S, a))) fun x => (get n x.1 x.2 ".".toList false true).bind fun y => some (.ok (y.2, x.2))) =
        Res.bind r fun a => (get n S a ".".toList false true).bind fun y => some (.ok (y.2, a)) := by
      match r with
      | none => rfl
      | some (.error _) => rfl
      | some (.ok a) => rfl
    rw [this]
    refine good_bind h1 fun a _ => ?_
    obtain ⟨r2, e2, h2⟩ := sim_get (S := S) n a ".".toList true
    rw [e2]
    have : (Res.bind (Res.bind r2 fun b => some (.ok (S, b))) fun y => some (.ok (y.2, a))) = Res.bind r2 fun b => some (.ok (b, a)) := by
      match r2 with
      | none => rfl
      | some (.error _) => rfl
      | some (.ok a) => rfl
    rw [this]
    exact good_bind h2 fun b _ => rfl

theorem good_list {S : FS} (n : Nat) (p : Path) : ∀ (cs : List Str) (acc : List DirEnt),
    Good S (listLoop (cs.map fun c =>
      (c, match S.get? (p ++ [c]) with | some ⟨some h, _⟩ => some (pathBase h.name) | _ => none,
        match get n S (p ++ [c]) ".".toList false true with | some (.ok _) => true | _ => false)) acc) (listP S n p cs acc)
  | [], acc => rfl
  | c :: cs, acc => by
    rw [List.map_cons, listP, listLoop.eq_def]
    simp only
    split
    · exact good_list n p cs acc
    · obtain ⟨r, e, h⟩ := sim_get (S := S) n (p ++ [c]) ".".toList true
      refine good_andThen h ?_
      rw [e]
      match r with
      | none => exact rfl
      | some (.error _) => exact rfl
      | some (.ok a) =>
        have key : ∀ x y : DirEnt, x = y → Good S (listLoop (cs.map fun c =>
            (c, match S.get? (p ++ [c]) with | some ⟨some h, _⟩ => some (pathBase h.name) | _ => none,
              match get n S (p ++ [c]) ".".toList false true with | some (.ok _) => true | _ => false)) (acc ++ [x]))
            (listP S n p cs (acc ++ [y])) := fun x y e => e ▸ good_list n p cs _
        simp only [Res.bind, Bool.not_true, Bool.false_eq_true, if_false]
        refine key _ _ ?_
        rcases S.get? (p ++ [c]) with _ | ⟨_ | h, b⟩ <;> rfl

end Squash.Lazy
