import Verif.Squash.PropsTree
/-! C68: does a lookup terminate? -/
namespace Squash
open Go Spec

/-! ### it need not -/

/-- the file system of a layer with the single symlink "a" to "a/b" -/
def exSelf : FS := [(["a".toList], ⟨some (exLink "a" "a/b").header, []⟩), ([], ⟨none, []⟩)]

theorem selfLoop_get {S : FS} (hr : S.nonDir [] = false) (ha : S.link ["a".toList] = some "a/b".toList) (create : Bool) :
    ∀ (n : Nat) (c : Str) (fl : Bool), c ≠ "..".toList → c ≠ ".".toList → get n S ["a".toList] c create fl = none := by
  have hh : S.has ([] ++ ["a".toList]) := by
    unfold FS.link at ha
    unfold FS.has
    rw [List.nil_append]
    cases e : S.get? ["a".toList] with
    | none => rw [e] at ha; simp at ha
    | some nd => rfl
  intro n
  induction n with
  | zero => intro c fl _ _; rfl
  | succ n ih =>
    intro c fl h1 h2
    rw [get]
    have hent : enter (fun S d l => fsGetWith (fun S d c fl => get n S d c create fl) S d l true) S ["a".toList] = none := by
      unfold enter
      rw [ha]
      simp only
      unfold fsGetWith
      simp only
      rw [show clean "a/b".toList = "a/b".toList by decide, if_neg (by decide), show split '/' "a/b".toList = ["a".toList, "b".toList] by decide]
      show walk _ S [] ["a".toList, "b".toList] true = none
      rw [walk]
      · cases n with
        | zero => rfl
        | succ n =>
          rw [get_dir hr (by decide) (by decide), child_old hh]
          simp only [bind_some_ok, List.nil_append, Bool.false_eq_true, if_false]
          rw [walk]
          exact ih _ _ (by decide) (by decide)
      · simp
    rw [if_neg h1, if_neg h2]
    show Res.bind (Res.bind (enter (fun S d l => fsGetWith (fun S d c fl => get n S d c create fl) S d l true) S ["a".toList]) _) _ = none
    rw [hent]; rfl

/-- C68 fails: an image with a single symlink from "a" to "a/b" is loaded without complaint, but opening "a" does not
return (the code recurses until the stack is exhausted); and loading a layer that has a file below such a link does not
return either. -/
theorem C68_violated :
    (∀ n, 3 ≤ n → loadLayers n [[exLink "a" "a/b"]] false = some (.ok exSelf)) ∧
    (∀ n, openFile n exSelf "a".toList = none) ∧
    (∀ n, loadLayers n [[exLink "a" "a/b", exFile "a/x" []]] false = none) := by
  have hr : exSelf.nonDir [] = false := by decide +kernel
  have ha : exSelf.link ["a".toList] = some "a/b".toList := by decide +kernel
  have hh : exSelf.has ([] ++ ["a".toList]) := by unfold FS.has; decide +kernel
  refine ⟨fun n hn => load_mono hn (by decide +kernel), ?_, ?_⟩
  · intro n
    unfold openFile
    rw [if_neg (by decide)]
    cases n with
    | zero => rfl
    | succ n =>
      have h1 : fsGet (n + 1) exSelf [] "a".toList false false = some (.ok (exSelf, ["a".toList])) := by
        unfold fsGet fsGetWith
        simp only
        rw [show clean "a".toList = "a".toList by decide, if_neg (by decide), show split '/' "a".toList = ["a".toList] by decide, walk,
          get_dir (c := "a".toList) hr (by decide) (by decide), child_old hh]
        rfl
      rw [h1, bind_some_ok]
      have h2 : get (n + 1) exSelf ["a".toList] ".".toList false true = none := by
        rw [get]
        simp only
        rw [if_neg (by decide : ¬ ".".toList = "..".toList)]
        simp only [if_true, bind_some_ok]
        cases n with
        | zero => rfl
        | succ n =>
          rw [resolve, ha]
          simp only
          rw [if_neg (by simp)]
          have h3 : fsGetWith (fun S d c fl => get (n + 1) S d c false fl) exSelf (["a".toList] : Path).dropLast "a/b".toList false = none := by
            unfold fsGetWith
            simp only
            rw [show clean "a/b".toList = "a/b".toList by decide, if_neg (by decide), show split '/' "a/b".toList = ["a".toList, "b".toList] by decide]
            show walk _ exSelf [] ["a".toList, "b".toList] false = none
            rw [walk]
            · rw [get_dir hr (by decide) (by decide), child_old hh]
              simp only [bind_some_ok, List.nil_append, Bool.false_eq_true, if_false]
              rw [walk]
              exact selfLoop_get hr ha false _ _ _ (by decide) (by decide)
            · simp
          rw [h3]; rfl
      rw [h2]; rfl
  · intro n
    cases n with
    | zero => decide +kernel
    | succ n =>
      have h1 : addEntry (n + 1) emptyFS (exLink "a" "a/b") = some (.ok exSelf) := by
        unfold addEntry fsGet fsGetWith
        simp only
        rw [show clean (exLink "a" "a/b").header.name = "a".toList by decide, if_neg (by decide),
          show split '/' "a".toList = ["a".toList] by decide, walk, get_dir (c := "a".toList) (by decide +kernel) (by decide) (by decide), child_new (by decide +kernel)]
        simp only [bind_some_ok, Bool.false_eq_true, if_false]
        unfold set
        rw [if_pos (by decide)]
        decide +kernel
      have h2 : addEntry (n + 1) exSelf (exFile "a/x" []) = none := by
        unfold addEntry fsGet fsGetWith
        simp only
        rw [show clean (exFile "a/x" []).header.name = "a/x".toList by decide, if_neg (by decide),
          show split '/' "a/x".toList = ["a".toList, "x".toList] by decide, walk]
        · rw [get_dir (c := "a".toList) hr (by decide) (by decide), child_old hh]
          simp only [bind_some_ok, List.nil_append, Bool.false_eq_true, if_false]
          rw [walk, selfLoop_get hr ha true _ _ _ (by decide) (by decide)]
          rfl
        · simp
      unfold loadLayers
      rw [loadFrom, show parseLayer false [exLink "a" "a/b", exFile "a/x" []] = .ok ([], [exLink "a" "a/b", exFile "a/x" []]) by decide +kernel]
      simp only
      rw [addEntries, bind_some_ok, addEntries, h1, bind_some_ok, addEntries, h2]
      rfl

/-! ### when it does -/

/-- the directories in which a name is looked up while following the elements `cs` of a path from `d` -/
def Spec.entered : Path → List Str → List Path
  | _, [] => []
  | d, c :: cs =>
    if c = "..".toList then entered d.dropLast cs
    else if c = ".".toList then entered d cs
    else d :: entered (d ++ [c]) cs

/-- the directory from which a symlink at `p` with target `l` is followed, and the elements to follow -/
def Spec.start (p : Path) (l : Str) : Path := if isRooted (clean l) then [] else p.dropLast
def Spec.elems (l : Str) : List Str := if isRooted (clean l) then split '/' ((clean l).drop 1) else split '/' (clean l)

/-- no symlink's target passes through another symlink: the directories it passes are not symlinks themselves (it may
end at one, and there may be loops of such links, and links to nothing) -/
def Spec.DirectLinks (S : FS) : Prop := ∀ p l, S.link p = some l → ∀ d ∈ entered (start p l) (elems l), S.link d = none

/-- the result of a lookup that changes nothing and returns -/
def Fine (S : FS) (x : Res (FS × Path)) : Prop := x = some (.error ()) ∨ ∃ r, x = some (.ok (S, r))

theorem Fine.ne_none {S : FS} {x : Res (FS × Path)} (h : Fine S x) : x ≠ none := by
  rcases h with h | ⟨r, h⟩ <;> rw [h] <;> simp

theorem makeDir_fine {g : FS → Path → Res (FS × Path)} {S : FS} {f : Path} :
    makeDir g false S f = some (.error ()) ∨ makeDir g false S f = some (.ok S) := by
  unfold makeDir; split <;> simp

theorem child_fine {S : FS} {f : Path} {c : Str} :
    child false S f c = some (.error ()) ∨ child false S f c = some (.ok (S, f ++ [c])) := by
  unfold child; split <;> simp

/-- `Get` for reading, without following: if the directory is not a link -/
theorem get_fine {n : Nat} {S : FS} {f : Path} {c : Str} {fl : Bool} (hl : c ≠ "..".toList → c ≠ ".".toList → S.link f = none)
    (hr : fl = true → ∀ r, Fine S (resolve (fun S d l => fsGetWith (fun S d c fl => get n S d c false fl) S d l false) n S [] r)) :
    get (n + 1) S f c false fl = some (.error ()) ∨
      (∃ r, get (n + 1) S f c false fl = some (.ok (S, r))) ∧ (fl = false → get (n + 1) S f c false fl = some (.ok (S,
        if c = "..".toList then f.dropLast else if c = ".".toList then f else f ++ [c]))) := by
  rw [get]
  simp only
  have hfin : ∀ r, Fine S (if fl = true then resolve (fun S d l => fsGetWith (fun S d c fl => get n S d c false fl) S d l false) n S [] r
      else some (.ok (S, r))) := by
    intro r
    cases fl with
    | true => rw [if_pos rfl]; exact hr rfl r
    | false => exact .inr ⟨r, rfl⟩
  by_cases h1 : c = "..".toList
  · rw [if_pos h1, bind_some_ok, if_pos h1]
    rcases hfin f.dropLast with h | ⟨r, h⟩
    · exact .inl h
    · exact .inr ⟨⟨r, h⟩, fun e => by rw [e]; rfl⟩
  · rw [if_neg h1, if_neg h1]
    by_cases h2 : c = ".".toList
    · rw [if_pos h2, bind_some_ok, if_pos h2]
      rcases hfin f with h | ⟨r, h⟩
      · exact .inl h
      · exact .inr ⟨⟨r, h⟩, fun e => by rw [e]; rfl⟩
    · rw [if_neg h2, if_neg h2, enter_dir (hl h1 h2), bind_some_ok]
      rcases makeDir_fine (g := fun S f => get n S f opqName true true) (S := S) (f := f) with e | e
      · simp only; rw [e]; exact .inl rfl
      · simp only
        rw [e, bind_some_ok]
        rcases child_fine (S := S) (f := f) (c := c) with e | e
        · rw [e]; exact .inl rfl
        · rw [e, bind_some_ok]
          rcases hfin (f ++ [c]) with h | ⟨r, h⟩
          · exact .inl h
          · exact .inr ⟨⟨r, h⟩, fun e => by rw [e]; rfl⟩

/-- following elements through directories that are not links -/
theorem walk_fine {n : Nat} {S : FS} {fl : Bool}
    (hr : fl = true → ∀ r, Fine S (resolve (fun S d l => fsGetWith (fun S d c fl => get n S d c false fl) S d l false) n S [] r)) :
    ∀ (cs : List Str) (d : Path), (∀ x ∈ entered d cs, S.link x = none) →
      Fine S (walk (fun S d c fl => get (n + 1) S d c false fl) S d cs fl) := by
  intro cs
  induction cs with
  | nil => intro d _; exact .inr ⟨d, rfl⟩
  | cons c cs ih =>
    intro d hd
    have hl : c ≠ "..".toList → c ≠ ".".toList → S.link d = none := by
      intro h1 h2
      rw [entered, if_neg h1, if_neg h2] at hd
      exact hd d (by simp)
    cases cs with
    | nil =>
      rw [walk]
      rcases get_fine hl hr with h | ⟨⟨r, h⟩, _⟩
      · exact .inl h
      · exact .inr ⟨r, h⟩
    | cons c2 cs =>
      rw [walk]
      · rcases get_fine (n := n) (fl := false) hl (by simp) with h | ⟨_, h⟩
        · rw [h]; exact .inl rfl
        · rw [h rfl, bind_some_ok]
          refine ih _ ?_
          intro x hx
          apply hd
          rw [entered]
          split at hx
          · rename_i h1; rw [if_pos h1]; exact hx
          · rename_i h1
            rw [if_neg h1]
            split at hx
            · rename_i h2; rw [if_pos h2]; exact hx
            · rename_i h2; rw [if_neg h2]; exact List.mem_cons_of_mem _ hx
      · simp

theorem fsGetWith_start {g : FS → Path → Str → Bool → Res (FS × Path)} {S : FS} {p : Path} {l : Str} {fl : Bool} :
    fsGetWith g S p.dropLast l fl = walk g S (start p l) (elems l) fl := by
  unfold fsGetWith start elems
  simp only
  split <;> rfl

theorem has_of_link {S : FS} {p : Path} {l : Str} (h : S.link p = some l) : p ∈ S.map (·.1) := by
  rw [← get?_isSome_iff]
  unfold FS.link at h
  cases e : S.get? p with
  | none => rw [e] at h; simp at h
  | some nd => rfl

theorem nodup_length_le {α : Type} [DecidableEq α] {st l : List α} (hn : st.Nodup) (hs : ∀ a ∈ st, a ∈ l) :
    st.length ≤ l.length := by
  induction st generalizing l with
  | nil => simp
  | cons a st ih =>
    rw [List.nodup_cons] at hn
    have h1 := ih (l := l.erase a) hn.2 (fun b hb =>
      (List.mem_erase_of_ne (by intro e; subst e; exact hn.1 hb)).mpr (hs b (by simp [hb])))
    have h2 := List.length_erase_of_mem (hs a (by simp))
    have h3 : 0 < l.length := List.length_pos_of_mem (hs a (by simp))
    rw [List.length_cons]; omega

/-- the loop that follows links ends: it visits each link at most once -/
theorem resolve_fine {n : Nat} {S : FS} (hd : DirectLinks S) : ∀ (k : Nat) (st : List Path) (r : Path), st.Nodup →
    (∀ q ∈ st, ∃ l, S.link q = some l) → S.length < k + st.length →
    Fine S (resolve (fun S d l => fsGetWith (fun S d c fl => get (n + 1) S d c false fl) S d l false) k S st r) := by
  intro k
  induction k with
  | zero =>
    intro st r hn hl hk
    exfalso
    have := nodup_length_le (l := S.map (·.1)) hn (fun q hq => has_of_link (hl q hq).choose_spec)
    simp at this; omega
  | succ k ih =>
    intro st r hn hl hk
    rw [resolve]
    cases e : S.link r with
    | none => exact .inr ⟨r, rfl⟩
    | some l =>
      simp only
      split
      · exact .inl rfl
      · rename_i hm
        rw [fsGetWith_start]
        rcases walk_fine (n := n) (fl := false) (by simp) (elems l) (start r l) (hd r l e) with h | ⟨t, h⟩
        · rw [h]; exact .inl rfl
        · rw [h, bind_some_ok]
          refine ih _ _ (List.nodup_cons.mpr ⟨hm, hn⟩) ?_ (by rw [List.length_cons]; omega)
          intro q hq
          rcases List.mem_cons.mp hq with rfl | hq
          · exact ⟨l, e⟩
          · exact hl q hq

/-- every `Get` for reading returns -/
theorem get_returns {S : FS} (hd : DirectLinks S) (k : Nat) (hk : S.length < k) (f : Path) (c : Str) (fl : Bool) :
    Fine S (get (k + 3) S f c false fl) := by
  have hres : ∀ m, k ≤ m → ∀ r, Fine S (resolve (fun S d l => fsGetWith (fun S d c fl => get (m + 1) S d c false fl) S d l false)
      (m + 1) S [] r) := fun m hm r => resolve_fine hd (m + 1) [] r List.nodup_nil (by simp) (by simp; omega)
  rw [get]
  simp only
  have hfin : ∀ r, Fine S (if fl = true then resolve (fun S d l => fsGetWith (fun S d c fl => get (k + 2) S d c false fl) S d l false)
      (k + 2) S [] r else some (.ok (S, r))) := by
    intro r
    split
    · exact hres (k + 1) (by omega) r
    · exact .inr ⟨r, rfl⟩
  by_cases h1 : c = "..".toList
  · rw [if_pos h1, bind_some_ok]; exact hfin _
  · rw [if_neg h1]
    by_cases h2 : c = ".".toList
    · rw [if_pos h2, bind_some_ok]; exact hfin _
    · rw [if_neg h2]
      have hent : Fine S (enter (fun S d l => fsGetWith (fun S d c fl => get (k + 2) S d c false fl) S d l true) S f) := by
        unfold enter
        cases e : S.link f with
        | none => exact .inr ⟨f, rfl⟩
        | some l =>
          simp only
          rw [fsGetWith_start]
          exact walk_fine (n := k + 1) (fun _ r => hres k (by omega) r) _ _ (hd f l e)
      rcases hent with h | ⟨f', h⟩
      · rw [h]; exact .inl rfl
      · rw [h, bind_some_ok]
        simp only
        rcases makeDir_fine (g := fun S f => get (k + 2) S f opqName true true) (S := S) (f := f') with e | e
        · rw [e]; exact .inl rfl
        · rw [e, bind_some_ok]
          rcases child_fine (S := S) (f := f') (c := c) with e | e
          · rw [e]; exact .inl rfl
          · rw [e, bind_some_ok]; exact hfin _

theorem walk_returns {S : FS} {g : FS → Path → Str → Bool → Res (FS × Path)} (hg : ∀ f c fl, Fine S (g S f c fl)) :
    ∀ (cs : List Str) (d : Path) (fl : Bool), Fine S (walk g S d cs fl) := by
  intro cs
  induction cs with
  | nil => intro d fl; exact .inr ⟨d, rfl⟩
  | cons c cs ih =>
    intro d fl
    cases cs with
    | nil => exact hg d c fl
    | cons c2 cs =>
      rw [walk]
      · rcases hg d c false with h | ⟨r, h⟩
        · rw [h]; exact .inl rfl
        · rw [h, bind_some_ok]; exact ih _ _
      · simp

/-- C68, for file systems in which no symlink's target passes through another symlink (chains and loops of links, links
to nothing, links with `..` and absolute links are allowed): opening any path returns, with a file or an error, within a
recursion depth given by the number of files.  Without the condition it fails, see `C68_violated`. -/
theorem C68_open_returns_partial (S : FS) (hd : DirectLinks S) (name : Str) (n : Nat) (hn : S.length + 4 ≤ n) :
    openFile n S name ≠ none := by
  obtain ⟨k, rfl⟩ : ∃ k, n = k + 3 := ⟨n - 3, by omega⟩
  have hg := get_returns hd k (by omega)
  unfold openFile
  split
  · simp
  · have : Fine S (fsGet (k + 3) S [] name false false) := by
      unfold fsGet fsGetWith
      simp only
      split
      · exact walk_returns hg _ _ _
      · exact walk_returns hg _ _ _
    rcases this with h | ⟨r, h⟩
    · rw [h]; simp [Res.bind]
    · rw [h, bind_some_ok]
      simp only
      rcases hg r ".".toList true with h | ⟨t, h⟩
      · rw [h]; simp [Res.bind]
      · rw [h]; simp [Res.bind]

/-- a file system with a chain, a loop, a dangling link and an absolute link that meets the condition -/
def exLinksFS : FS :=
  [([], ⟨none, []⟩), (["d".toList], ⟨none, []⟩), (["d".toList, "f".toList], ⟨some (exFile "d/f" []).header, []⟩),
   (["a".toList], ⟨some (exLink "a" "b").header, []⟩), (["b".toList], ⟨some (exLink "b" "d/../a").header, []⟩),
   (["d".toList, "u".toList], ⟨some (exLink "d/u" "../d/f").header, []⟩),
   (["d".toList, "v".toList], ⟨some (exLink "d/v" "/d/u").header, []⟩), (["n".toList], ⟨some (exLink "n" "none").header, []⟩)]

example : DirectLinks exLinksFS := by
  intro p l h
  have hp := has_of_link h
  have key : ∀ p ∈ exLinksFS.map (·.1), ∀ l ∈ exLinksFS.link p, ∀ d ∈ entered (start p l) (elems l), exLinksFS.link d = none := by
    decide +kernel
  exact key p hp l h

example : openFile 12 exLinksFS "d/v".toList = some (.ok (["d".toList, "f".toList], ["d".toList, "v".toList])) ∧
    openFile 12 exLinksFS "a".toList = some (.error ()) := by decide +kernel

end Squash
