import Verif.Python.Interpolate
import Verif.Python.InterpolateSpec
import Verif.Python.PropsConfig
/-! C152: interpolation. -/
namespace Python
open Go

/-! ### maps -/

theorem getKey_map {α β : Type} {h : Str × α → β} : ∀ {m : List (Str × α)} {e : Str × α}, (m.map (·.1)).Nodup → e ∈ m →
    getKey e.1 (m.map (fun e => (e.1, h e))) = some (h e)
  | a :: m, e, hn, he => by
    rw [List.map_cons, List.nodup_cons] at hn
    rw [List.map_cons, getKey]
    rcases List.mem_cons.mp he with rfl | he
    · exact if_pos rfl
    · rw [if_neg (fun (e' : a.1 = e.1) => hn.1 (by rw [e']; exact List.mem_map_of_mem he))]
      exact getKey_map hn.2 he

theorem setKey_absent {α β : Type} {h : Str × α → β} {k : Str} {v : β} : ∀ {m : List (Str × α)}, k ∉ m.map (·.1) →
    m.map (fun e => (e.1, h e)) = m.map (fun x => (x.1, if x.1 = k then v else h x))
  | [], _ => rfl
  | a :: m, hk => by
    rw [List.map_cons, List.map_cons, if_neg (fun (e : a.1 = k) => hk (by simp [e])),
      setKey_absent (v := v) (fun h => hk (by rw [List.map_cons]; exact List.mem_cons_of_mem _ h))]

theorem setKey_map {α β : Type} {h : Str × α → β} {v : β} : ∀ {m : List (Str × α)} {e : Str × α}, (m.map (·.1)).Nodup → e ∈ m →
    setKey e.1 v (m.map (fun e => (e.1, h e))) = m.map (fun x => (x.1, if x.1 = e.1 then v else h x))
  | a :: m, e, hn, he => by
    rw [List.map_cons, List.nodup_cons] at hn
    rw [List.map_cons, setKey, List.map_cons]
    rcases List.mem_cons.mp he with rfl | he
    · rw [if_pos rfl, if_pos rfl, setKey_absent hn.1]
    · have hne : a.1 ≠ e.1 := fun e' => hn.1 (by rw [e']; exact List.mem_map_of_mem he)
      rw [if_neg hne, if_neg hne, setKey_map hn.2 he]

theorem key_inj {α : Type} : ∀ {m : List (Str × α)} {a b : Str × α}, (m.map (·.1)).Nodup → a ∈ m → b ∈ m → a.1 = b.1 → a = b
  | x :: m, a, b, hn, ha, hb, e => by
    rw [List.map_cons, List.nodup_cons] at hn
    rcases List.mem_cons.mp ha with rfl | ha' <;> rcases List.mem_cons.mp hb with rfl | hb'
    · rfl
    · exact absurd (by rw [e]; exact List.mem_map_of_mem hb') hn.1
    · exact absurd (by rw [← e]; exact List.mem_map_of_mem ha') hn.1
    · exact key_inj hn.2 ha' hb' e

/-! ### the loops -/

/-- no section is twice, and no option of a section -/
def Keyed (c : Config) : Prop := (c.map (·.1)).Nodup ∧ ∀ e ∈ c, (e.2.map (·.1)).Nodup

/-- what `interp` makes of a value -/
def made (interp : Config → Str → Except Unit Str) (raw : Config) (v : Str) : Str :=
  match interp raw v with
  | .ok v => v
  | .error _ => []

/-- the configuration with the options in `D` interpolated -/
def upd (interp : Config → Str → Except Unit Str) (raw : Config) (D : List (Str × Str)) : Config :=
  raw.map (fun e => (e.1, e.2.map (fun o => (o.1, if (e.1, o.1) ∈ D then made interp raw o.2 else o.2))))

variable {interp : Config → Str → Except Unit Str} {raw : Config}

theorem upd_nil : upd interp raw [] = raw := by
  unfold upd
  simp

theorem upd_congr {D D' : List (Str × Str)} (h : ∀ x, x ∈ D ↔ x ∈ D') : upd interp raw D = upd interp raw D' := by
  unfold upd
  simp only [h]

theorem getOption_upd (hk : Keyed raw) {D : List (Str × Str)} {e : Str × List (Str × Str)} {o : Str × Str} (he : e ∈ raw) (ho : o ∈ e.2)
    (hD : (e.1, o.1) ∉ D) : getOption (upd interp raw D) (e.1, o.1) = o.2 := by
  unfold getOption upd
  rw [getKey_map (h := fun e => e.2.map (fun o => (o.1, if (e.1, o.1) ∈ D then made interp raw o.2 else o.2))) hk.1 he]
  simp only [Option.bind_some]
  rw [getKey_map (h := fun o => if (e.1, o.1) ∈ D then made interp raw o.2 else o.2) (hk.2 e he) ho, if_neg hD]
  rfl

theorem putOption_upd (hk : Keyed raw) {D : List (Str × Str)} {e : Str × List (Str × Str)} {o : Str × Str} (he : e ∈ raw) (ho : o ∈ e.2) :
    putOption (upd interp raw D) (e.1, o.1) (made interp raw o.2) = upd interp raw ((e.1, o.1) :: D) := by
  unfold putOption upd
  simp only
  rw [getKey_map (h := fun e => e.2.map (fun o => (o.1, if (e.1, o.1) ∈ D then made interp raw o.2 else o.2))) hk.1 he,
    setKey_map (h := fun e => e.2.map (fun o => (o.1, if (e.1, o.1) ∈ D then made interp raw o.2 else o.2))) hk.1 he]
  simp only [Option.getD_some]
  rw [setKey_map (h := fun o => if (e.1, o.1) ∈ D then made interp raw o.2 else o.2) (hk.2 e he) ho]
  refine List.map_congr_left fun e' he' => ?_
  by_cases hs : e'.1 = e.1
  · obtain rfl := key_inj hk.1 he' he hs
    rw [if_pos rfl]
    refine congrArg (Prod.mk e'.1) (List.map_congr_left fun o' ho' => ?_)
    by_cases hkk : o'.1 = o.1
    · obtain rfl := key_inj (hk.2 e' he) ho' ho hkk
      simp
    · simp [hkk]
  · rw [if_neg hs]
    refine congrArg (Prod.mk e'.1) (List.map_congr_left fun o' ho' => ?_)
    simp [hs]

theorem values_map {R : Str → Str → Prop} {w : Str → Str × Str → Str} : ∀ {raw : Config}, (∀ e ∈ raw, ∀ o ∈ e.2, R o.2 (w e.1 o)) →
    Spec.Values R raw (raw.map (fun e => (e.1, e.2.map (fun o => (o.1, w e.1 o)))))
  | [], _ => .nil
  | (s, os) :: raw, h => by
    refine .cons ⟨rfl, ?_⟩ (values_map (fun x hx => h x (by simp [hx])))
    have h' : ∀ o ∈ os, R o.2 (w s o) := h (s, os) (by simp)
    clear h
    show List.Forall₂ _ os (os.map (fun o => (o.1, w s o)))
    induction os with
    | nil => exact .nil
    | cons o os ih => exact .cons ⟨rfl, h' o (by simp)⟩ (ih (fun x hx => h' x (by simp [hx])))

/-- the option can be interpolated -/
def Okay (interp : Config → Str → Except Unit Str) (raw : Config) (x : Str × Str) : Prop :=
  ∀ e ∈ raw, ∀ o ∈ e.2, x = (e.1, o.1) → interp raw o.2 = .ok (made interp raw o.2)

theorem made_of {v v' : Str} (h : interp raw v = .ok v') : made interp raw v = v' := by
  unfold made
  rw [h]

theorem all_iff (hk : Keyed raw) (hst : Spec.Stable interp raw) (c : Config) : ∀ (os D : List (Str × Str)), os.Nodup →
    (∀ x ∈ os, x ∉ D ∧ ∃ e ∈ raw, ∃ o ∈ e.2, x = (e.1, o.1)) → (∀ x ∈ D, Okay interp raw x) →
    (interpolateAll interp (upd interp raw D) os = .ok c ↔ (∀ x ∈ os, Okay interp raw x) ∧ c = upd interp raw (os ++ D))
  | [], D, _, _, _ => by
    rw [interpolateAll]
    constructor
    · intro h
      cases h
      exact ⟨fun _ h => (nomatch h), rfl⟩
    · rintro ⟨_, rfl⟩
      rfl
  | x :: os, D, hn, hin, hD => by
    obtain ⟨hxD, e, he, o, ho, rfl⟩ := hin x (by simp)
    rw [List.nodup_cons] at hn
    have hs : interp (upd interp raw D) o.2 = interp raw o.2 := by
      refine hst _ (values_map (w := fun s o => if (s, o.1) ∈ D then made interp raw o.2 else o.2) ?_) e he o ho
      intro e' he' o' ho'
      by_cases hd : (e'.1, o'.1) ∈ D
      · rw [if_pos hd]; exact .inr (hD _ hd e' he' o' ho' rfl)
      · rw [if_neg hd]; exact .inl rfl
    rw [interpolateAll, getOption_upd hk he ho hxD, hs]
    cases hi : interp raw o.2 with
    | error _ =>
      constructor
      · intro h; cases h
      · intro h
        have := h.1 _ (List.mem_cons_self ..) e he o ho rfl
        rw [hi] at this
        cases this
    | ok v =>
      have hx : Okay interp raw (e.1, o.1) := by
        intro e' he' o' ho' heq
        injection heq with h1 h2
        obtain rfl := key_inj hk.1 he he' h1
        obtain rfl := key_inj (hk.2 e he) ho ho' h2
        rw [made_of hi, hi]
      show interpolateAll interp (putOption (upd interp raw D) (e.1, o.1) v) os = .ok c ↔ _
      rw [← made_of hi, putOption_upd hk he ho, all_iff hk hst c os _ hn.2]
      · refine and_congr ⟨fun h y hy => (List.mem_cons.mp hy).elim (fun e => e ▸ hx) (h y), fun h y hy => h y (by simp [hy])⟩ ?_
        rw [upd_congr (D := os ++ (e.1, o.1) :: D) (D' := (e.1, o.1) :: os ++ D)]
        intro y
        simp only [List.mem_append, List.mem_cons]
        tauto
      · intro y hy
        refine ⟨fun h => ?_, (hin y (by simp [hy])).2⟩
        rcases List.mem_cons.mp h with rfl | h
        · exact hn.1 hy
        · exact (hin y (by simp [hy])).1 h
      · intro y hy
        rcases List.mem_cons.mp hy with rfl | hy
        · exact hx
        · exact hD y hy

theorem options_unique {R : Str → Str → Prop} {w : Str → Str} : ∀ {os os' : List (Str × Str)}, (∀ o ∈ os, ∀ v, R o.2 v → w o.2 = v) →
    List.Forall₂ (fun o o' => o'.1 = o.1 ∧ R o.2 o'.2) os os' → os' = os.map (fun o => (o.1, w o.2))
  | [], _, _, h => by cases h; rfl
  | o :: os, _, hw, h => by
    cases h with
    | @cons _ o' _ os' ho hos =>
      rw [List.map_cons, ← options_unique (fun x hx => hw x (by simp [hx])) hos, hw o (by simp) _ ho.2, ← ho.1]

theorem values_unique {R : Str → Str → Prop} {w : Str → Str} : ∀ {raw c : Config}, (∀ v v', R v v' → w v = v') → Spec.Values R raw c →
    c = raw.map (fun e => (e.1, e.2.map (fun o => (o.1, w o.2))))
  | [], _, _, h => by cases h; rfl
  | e :: raw, _, hw, h => by
    cases h with
    | @cons _ e' _ c' he hc =>
      rw [List.map_cons, ← values_unique hw hc, ← options_unique (fun o _ v hv => hw _ v hv) he.2, ← he.1]

theorem values_okay {R : Str → Str → Prop} : ∀ {raw c : Config}, Spec.Values R raw c → ∀ e ∈ raw, ∀ o ∈ e.2, ∃ v, R o.2 v
  | e :: raw, _, h, x, hx, o, ho => by
    cases h with
    | @cons _ e' _ c' he hc =>
      rcases List.mem_cons.mp hx with rfl | hx
      · have hf := he.2
        generalize e'.2 = os' at hf
        clear he hc hx
        generalize x.2 = os at hf ho
        induction hf with
        | nil => cases ho
        | cons h1 _ ih => exact (List.mem_cons.mp ho).elim (fun e => e ▸ ⟨_, h1.2⟩) ih
      · exact values_okay hc x hx o ho

theorem interpolated_iff {order : List (Str × Str)} (hk : Keyed raw) (hst : Spec.Stable interp raw) (hv : Spec.Visits raw order) (c : Config) :
    interpolateAll interp raw order = .ok c ↔ Spec.Interpolated interp raw c := by
  have h := all_iff hk hst c order [] hv.1 (fun x hx => ⟨by simp, by
    obtain ⟨e, he, e1, o, ho, e2⟩ := (hv.2 x.1 x.2).mp hx
    exact ⟨e, he, o, ho, by rw [e1, e2]⟩⟩) (fun _ h => nomatch h)
  rw [upd_nil, List.append_nil] at h
  have hall : upd interp raw order = raw.map (fun e => (e.1, e.2.map (fun o => (o.1, made interp raw o.2)))) := by
    unfold upd
    refine List.map_congr_left fun e he => congrArg (Prod.mk e.1) (List.map_congr_left fun o ho => ?_)
    rw [if_pos ((hv.2 _ _).mpr ⟨e, he, rfl, o, ho, rfl⟩)]
  rw [h, hall]
  constructor
  · rintro ⟨h1, rfl⟩
    refine values_map (w := fun _ o => made interp raw o.2) fun e he o ho => ?_
    exact h1 (e.1, o.1) ((hv.2 _ _).mpr ⟨e, he, rfl, o, ho, rfl⟩) e he o ho rfl
  · intro hi
    refine ⟨fun x _ e he o ho _ => ?_, values_unique (fun v v' hvv => made_of hvv) hi⟩
    obtain ⟨v, hv'⟩ := values_okay hi e he o ho
    rw [made_of hv', hv']

theorem parse_keyed {p : Parser} (hu : Spec.Usual p) {text : Str} (h : parseConfig p text = .ok raw) : Keyed raw := by
  obtain ⟨d, _, hd, rfl⟩ := (C75_parse hu text raw).mp h
  unfold Keyed Spec.toConfig
  rw [List.map_map]
  refine ⟨hd.1, fun e he => ?_⟩
  obtain ⟨x, hx, rfl⟩ := List.mem_map.mp he
  simp only [List.map_map]
  exact hd.2 x hx

/-! ### the property -/

/-- **C152** (partial) If `Interpolate` gives for the values of the text the same, whether or not others are replaced already, then, in whatever
order the maps are gone over, `Parse` succeeds with `c` exactly if the text without interpolation is read as some `raw` and `c` has the sections
and options of `raw`, each value being what `Interpolate` makes of it in `raw`.  (Without the condition: `C152_violated`.) -/
theorem C152_order_partial {p : Parser} (hu : Spec.Usual p) {order : Config → List (Str × Str)} {text : Str}
    (hst : ∀ raw, parseConfig p text = .ok raw → Spec.Stable interp raw)
    (hv : ∀ raw, parseConfig p text = .ok raw → Spec.Visits raw (order raw)) (c : Config) :
    parseInterpolated p interp order text = .ok c ↔ ∃ raw, parseConfig p text = .ok raw ∧ Spec.Interpolated interp raw c := by
  unfold parseInterpolated
  cases h : parseConfig p text with
  | error e =>
    constructor
    · intro h; cases h
    · rintro ⟨_, h, _⟩; cases h
  | ok raw =>
    refine (interpolated_iff (parse_keyed hu h) (hst raw h) (hv raw h) c).trans ⟨fun hi => ⟨raw, rfl, hi⟩, ?_⟩
    rintro ⟨_, e, hi⟩
    cases e
    exact hi

/-- **C152** with `NoInterpolation`, which `NewConfigParser` sets, the values stay as they are read -/
theorem C152_none {p : Parser} (hu : Spec.Usual p) {order : Config → List (Str × Str)} {text : Str}
    (hv : ∀ raw, parseConfig p text = .ok raw → Spec.Visits raw (order raw)) :
    parseInterpolated p noInterpolation order text = parseConfig p text := by
  unfold parseInterpolated
  cases h : parseConfig p text with
  | error e => rfl
  | ok raw =>
    refine (interpolated_iff (parse_keyed hu h) (fun _ _ _ _ _ _ => rfl) (hv raw h) raw).mpr ?_
    have := values_map (R := fun v v' => noInterpolation raw v = .ok v') (w := fun _ o => o.2) (raw := raw) (fun _ _ _ _ => rfl)
    simpa [Spec.Interpolated] using this

/-! ### examples, and a case in which it fails -/

/-- an `Interpolate` as one might write it: the value `@k` stands for the value of the option `k` of the section `s` -/
def refer (c : Config) (v : Str) : Except Unit Str :=
  match v with
  | '@' :: k => .ok (getOption c ("s".toList, k))
  | v => .ok v

/-- **C152** `Interpolate` gets a configuration in which some values are replaced already, which ones depends on the order in which Go happens to
go over the map: with `a = @b`, `b = @c`, `c = x`, the value of `a` is `@c` if `a` comes before `b`, and `x` otherwise -/
theorem C152_violated : ∃ text raw o o' c c', parseConfig newConfigParser text = .ok raw ∧ Spec.Visits raw o ∧ Spec.Visits raw o' ∧
    parseInterpolated newConfigParser refer (fun _ => o) text = .ok c ∧ parseInterpolated newConfigParser refer (fun _ => o') text = .ok c' ∧
    getOption c ("s".toList, "a".toList) = "@c".toList ∧ getOption c' ("s".toList, "a".toList) = "x".toList := by
  have hv : ∀ o : List (Str × Str), o.Nodup → (∀ x, x ∈ o ↔ x ∈ [("s".toList, "a".toList), ("s".toList, "b".toList), ("s".toList, "c".toList)]) →
      Spec.Visits [("s".toList, [("a".toList, "@b".toList), ("b".toList, "@c".toList), ("c".toList, "x".toList)])] o := by
    intro o hn hm
    refine ⟨hn, fun s k => ?_⟩
    rw [hm]
    simp only [List.mem_cons, List.not_mem_nil, or_false, Prod.mk.injEq, exists_eq_or_imp, exists_eq_left]
    constructor
    · rintro (⟨rfl, rfl⟩ | ⟨rfl, rfl⟩ | ⟨rfl, rfl⟩) <;> simp
    · rintro ⟨rfl, rfl | rfl | rfl⟩ <;> simp
  refine ⟨"[s]\na = @b\nb = @c\nc = x".toList, _, [("s".toList, "a".toList), ("s".toList, "b".toList), ("s".toList, "c".toList)],
    [("s".toList, "b".toList), ("s".toList, "a".toList), ("s".toList, "c".toList)], _, _, rfl, hv _ (by decide) (fun _ => Iff.rfl),
    hv _ (by decide) (fun x => ?_), rfl, rfl, by decide, by decide⟩
  simp only [List.mem_cons, List.not_mem_nil, or_false]
  tauto

/-- the hypotheses of `C152_order_partial` hold of a text with an option that refers to another one, and this is what is read -/
example : ∃ raw o, parseConfig newConfigParser "[s]\na = @b\nb = x".toList = .ok raw ∧ Spec.Stable refer raw ∧ Spec.Visits raw o ∧
    parseInterpolated newConfigParser refer (fun _ => o) "[s]\na = @b\nb = x".toList =
      .ok [("s".toList, [("a".toList, "x".toList), ("b".toList, "x".toList)])] := by
  refine ⟨[("s".toList, [("a".toList, "@b".toList), ("b".toList, "x".toList)])], [("s".toList, "a".toList), ("s".toList, "b".toList)], rfl, ?_,
    ⟨by decide, fun s k => ?_⟩, rfl⟩
  · intro c hc e he o ho
    cases hc with
    | @cons _ e' _ _ h1 h2 =>
      cases h2
      obtain ⟨s', os'⟩ := e'
      obtain ⟨rfl, h3⟩ := h1
      cases h3 with
      | @cons _ o1 _ _ h4 h5 =>
        cases h5 with
        | @cons _ o2 _ _ h6 h7 =>
          cases h7
          obtain ⟨k1, v1⟩ := o1
          obtain ⟨k2, v2⟩ := o2
          obtain ⟨rfl, _⟩ := h4
          obtain ⟨rfl, h8⟩ := h6
          have hv2 : v2 = "x".toList := by
            rcases h8 with h8 | h8
            · exact h8
            · exact (Except.ok.inj h8).symm
          subst hv2
          rw [List.mem_singleton] at he
          subst he
          simp only [List.mem_cons, List.not_mem_nil, or_false] at ho
          rcases ho with rfl | rfl <;> rfl
  · simp only [List.mem_cons, List.not_mem_nil, or_false, Prod.mk.injEq, exists_eq_or_imp, exists_eq_left]
    constructor
    · rintro (⟨rfl, rfl⟩ | ⟨rfl, rfl⟩) <;> simp
    · rintro ⟨rfl, rfl | rfl⟩ <;> simp

end Python
