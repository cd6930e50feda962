import Verif.Python.PropsConfigMerge
import Verif.Python.PropsInterpolate
/-!
C152 for parsers that are not strict.  Model: `Interpolate.lean` (configparser.go:157-165); that sections and options are put into maps is
`setKey`.  Here: what a parser that is not strict reads has each section once and each option of a section once.
-/
namespace Python
open Go

theorem setKey_fst {α : Type} (k : Str) (v : α) : ∀ {m : List (Str × α)} {x : Str}, x ∈ (setKey k v m).map (·.1) → x = k ∨ x ∈ m.map (·.1)
  | [], x, h => by
    simp only [setKey, List.map_cons, List.map_nil, List.mem_singleton] at h
    exact .inl h
  | e :: m, x, h => by
    rw [setKey] at h
    by_cases hk : e.1 = k
    · rw [if_pos hk] at h
      rcases List.mem_cons.mp h with h | h
      · exact .inl h
      · exact .inr (List.mem_cons_of_mem _ h)
    · rw [if_neg hk] at h
      rcases List.mem_cons.mp h with h | h
      · exact .inr (by rw [h]; exact List.mem_cons_self ..)
      · exact (setKey_fst k v h).imp id (List.mem_cons_of_mem _)

theorem setKey_nodup {α : Type} (k : Str) (v : α) : ∀ {m : List (Str × α)}, (m.map (·.1)).Nodup → ((setKey k v m).map (·.1)).Nodup
  | [], _ => by simp [setKey]
  | e :: m, h => by
    rw [List.map_cons, List.nodup_cons] at h
    rw [setKey]
    by_cases hk : e.1 = k
    · rw [if_pos hk, List.map_cons, List.nodup_cons]
      exact ⟨by rw [← hk]; exact h.1, h.2⟩
    · rw [if_neg hk, List.map_cons, List.nodup_cons]
      exact ⟨fun hm => (setKey_fst k v hm).elim hk h.1, setKey_nodup k v h.2⟩

theorem setKey_mem {α : Type} (k : Str) (v : α) : ∀ {m : List (Str × α)} {e : Str × α}, e ∈ setKey k v m → e = (k, v) ∨ e ∈ m
  | [], e, h => .inl (by simpa [setKey] using h)
  | a :: m, e, h => by
    rw [setKey] at h
    by_cases hk : a.1 = k
    · rw [if_pos hk] at h
      exact (List.mem_cons.mp h).imp id (List.mem_cons_of_mem _)
    · rw [if_neg hk] at h
      rcases List.mem_cons.mp h with h | h
      · exact .inr (by rw [h]; exact List.mem_cons_self ..)
      · exact (setKey_mem k v h).imp id (List.mem_cons_of_mem _)

theorem getKey_mem {α : Type} {k : Str} : ∀ {m : List (Str × α)} {v : α}, getKey k m = some v → (k, v) ∈ m
  | a :: m, v, h => by
    rw [getKey] at h
    by_cases hk : a.1 = k
    · rw [if_pos hk] at h
      cases h
      rw [← hk]
      exact List.mem_cons_self ..
    · rw [if_neg hk] at h
      exact List.mem_cons_of_mem _ (getKey_mem h)

theorem keyed_set {c : Config} (h : Keyed c) (s : Str) {m : List (Str × Str)} (hm : (m.map (·.1)).Nodup) : Keyed (setKey s m c) :=
  ⟨setKey_nodup s m h.1, fun e he => (setKey_mem s m he).elim (fun x => by rw [x]; exact hm) (h.2 e)⟩

theorem keyed_put {c : Config} (h : Keyed c) (x : Str × Str) (v : Str) : Keyed (putOption c x v) := by
  refine keyed_set h _ (setKey_nodup _ _ ?_)
  cases hg : getKey x.1 c with
  | none => simp
  | some m => exact h.2 _ (getKey_mem hg)

theorem keyed_merge : ∀ (d : List (Str × List (Str × List Str))) {c : Config}, Keyed c → Keyed (merge c d)
  | [], _, h => h
  | e :: d, c, h => by
    refine keyed_merge d (c := addOptions (enter c e.1) e.1 e.2) ?_
    have h1 : Keyed (enter c e.1) := by
      unfold enter
      split
      · exact keyed_set h _ (by simp)
      · exact h
    generalize enter c e.1 = c' at h1
    unfold addOptions
    generalize e.2 = os
    induction os generalizing c' with
    | nil => exact h1
    | cons o os ih => exact ih _ (keyed_put h1 _ _)

/-- **C152** (partial) The same for parsers that are not strict: if `Interpolate` gives for the values of the text the same, whether or not others
are replaced already, then, in whatever order the maps are gone over, `Parse` succeeds with `c` exactly if the text without interpolation is read as
some `raw` and `c` has the sections and options of `raw`, each value being what `Interpolate` makes of it in `raw`.  (Missing: functions that look
at other options, for which it fails, see `C152_violated`.) -/
theorem C152_lenient_partial {interp : Config → Str → Except Unit Str} {q : Parser} (hq : Spec.Lenient q) {order : Config → List (Str × Str)}
    {text : Str} (hst : ∀ raw, parseConfig q text = .ok raw → Spec.Stable interp raw)
    (hv : ∀ raw, parseConfig q text = .ok raw → Spec.Visits raw (order raw)) (c : Config) :
    parseInterpolated q interp order text = .ok c ↔ ∃ raw, parseConfig q text = .ok raw ∧ Spec.Interpolated interp raw c := by
  unfold parseInterpolated
  cases h : parseConfig q text with
  | error e =>
    constructor
    · intro h; cases h
    · rintro ⟨_, h, _⟩; cases h
  | ok raw =>
    have hk : Keyed raw := by
      rw [merge_parse_lines hq] at h
      obtain ⟨d, _, rfl⟩ := (merge_A hq _ _).mp h
      exact keyed_merge d ⟨by simp, fun _ h => nomatch h⟩
    refine (interpolated_iff hk (hst raw h) (hv raw h) c).trans ⟨fun hi => ⟨raw, rfl, hi⟩, ?_⟩
    rintro ⟨_, e, hi⟩
    cases e
    exact hi

/-- the hypotheses hold of a text in which an option is repeated, for a function that does not look at the configuration, and this is what is read -/
example : ∃ raw o, parseConfig lenient "[s]\na = x\na = y".toList = .ok raw ∧ Spec.Stable (fun _ v => .ok (v ++ v)) raw ∧ Spec.Visits raw o ∧
    parseInterpolated lenient (fun _ v => .ok (v ++ v)) (fun _ => o) "[s]\na = x\na = y".toList = .ok [("s".toList, [("a".toList, "yy".toList)])] := by
  refine ⟨[("s".toList, [("a".toList, "y".toList)])], [("s".toList, "a".toList)], rfl, fun _ _ _ _ _ _ => rfl, ⟨by decide, fun s k => ?_⟩, rfl⟩
  simp only [List.mem_cons, List.not_mem_nil, or_false, Prod.mk.injEq, exists_eq_left]
  exact ⟨fun h => ⟨h.1.symm, h.2.symm⟩, fun h => ⟨h.1.symm, h.2.symm⟩⟩

end Python
