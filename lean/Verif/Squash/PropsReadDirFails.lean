import Verif.Squash.PropsReadDir
/-! C71 for directories in which a link cannot be followed. -/
namespace Squash
open Go Squash.Spec

theorem listLoop_fails (kids : Kids) (acc : List DirEnt) (h : ∃ k ∈ kids, hasPrefix k.1 whPrefix = false ∧ k.2.2 = false) :
    ∃ pre post, kids = pre ++ post ∧ (∀ k ∈ pre, hasPrefix k.1 whPrefix = false → k.2.2 = true) ∧
      listLoop kids acc = (acc ++ (pre.filter (fun k => !hasPrefix k.1 whPrefix)).map entOf, false) := by
  induction kids generalizing acc with
  | nil => obtain ⟨k, hk, _⟩ := h; cases hk
  | cons k kids ih =>
    obtain ⟨key, base, fl⟩ := k
    have step : ¬ (hasPrefix key whPrefix = false ∧ fl = false) →
        ∃ k ∈ kids, hasPrefix k.1 whPrefix = false ∧ k.2.2 = false := by
      intro hn
      obtain ⟨k, hk, hb⟩ := h
      rcases List.mem_cons.mp hk with rfl | hk
      · exact absurd hb hn
      · exact ⟨k, hk, hb⟩
    rw [listLoop.eq_def]; simp only
    cases e : hasPrefix key whPrefix with
    | true =>
      rw [if_pos rfl]
      obtain ⟨pre, post, e1, e2, e3⟩ := ih acc (step (by simp [e]))
      refine ⟨(key, base, fl) :: pre, post, by rw [e1]; rfl, ?_, ?_⟩
      · intro k hk hw
        rcases List.mem_cons.mp hk with rfl | hk
        · rw [e] at hw; cases hw
        · exact e2 k hk hw
      · rw [e3, List.filter_cons, if_neg (by simp [e])]
    | false =>
      rw [if_neg (by simp)]
      cases fl with
      | false =>
        rw [if_pos (by simp)]
        exact ⟨[], (key, base, false) :: kids, rfl, by simp, by simp⟩
      | true =>
        rw [if_neg (by simp)]
        obtain ⟨pre, post, e1, e2, e3⟩ := ih (acc ++ [entOf (key, base, true)]) (step (by simp))
        refine ⟨(key, base, true) :: pre, post, by rw [e1]; rfl, ?_, ?_⟩
        · intro k hk hw
          rcases List.mem_cons.mp hk with rfl | hk
          · rfl
          · exact e2 k hk hw
        · rw [List.filter_cons, if_pos (by simp [e]), List.map_cons, List.append_cons acc (entOf (key, base, true)), ← e3]
          cases base <;> rfl

/-- **C71**, for directories in which the link of some child (that is no whiteout marker) cannot be followed: the first ReadDir on a handle
returns an error, whatever it is asked for.  The calls after it return, part by part and without an error, the entries for some of
the other children, each at most once; which ones depends on the order of the map. -/
theorem C71_fails (fuel : Nat) (oc : Bool) (layers : List (List Entry)) (S : FS)
    (hload : loadLayers fuel layers oc = some (.ok S)) (srt : (DirEnt → DirEnt → Bool) → List DirEnt → List DirEnt)
    (p : Path) (nd : Node) (hdir : ∀ h, nd.header = some h → h.typeflag = '5') (n : Nat) (c : Str)
    (hc : (S.get? (p ++ [c])).isSome = true) (hm : ¬ isMarker c)
    (hf : ¬ ∃ y, get n S (p ++ [c]) ".".toList false true = some (.ok y)) (order : List Str → List Str) (ho : ∀ l, (order l).Perm l) :
    ∃ E : List DirEnt, (E.map (·.name)).Nodup ∧
      (∀ d ∈ E, (S.get? (p ++ [d.name])).isSome = true ∧ ¬ isMarker d.name ∧
        (∃ y, get n S (p ++ [d.name]) ".".toList false true = some (.ok y)) ∧ (d.missing = true ↔ ∃ b, S.get? (p ++ [d.name]) = some ⟨none, b⟩)) ∧
      ∀ m : Int,
        let kids := kidsOf n order S p
        let first := (freshReader nd).readDir srt kids m
        first.2 = .error .other ∧
        ∀ ns : List Nat, (∀ k ∈ ns, 0 < k) →
          let r := readDirs srt kids first.1 (ns.map Int.ofNat)
          listed srt kids first.1 (ns.map Int.ofNat) = E.take ns.sum ∧
          (∀ m : Int, 0 < m → (r.readDir srt kids m).2 = if E.length ≤ ns.sum then .error .eof else .ok ((E.drop ns.sum).take m.toNat)) ∧
          (∀ m : Int, m ≤ 0 → (r.readDir srt kids m).2 = .ok (E.drop ns.sum)) := by
  have hi : Inv false S := load_inv (by simp) hload
  have hmark : ∀ {c : Str}, hasPrefix c whPrefix = false ↔ ¬ isMarker c := by
    intro c
    rw [← Bool.not_eq_true, hasPrefix_iff]; rfl
  have hmem : ∀ {c}, c ∈ order (childNames S p) ↔ S.has (p ++ [c]) := fun {c} => by
    rw [(ho _).mem_iff, mem_childNames]
  have hfl : ∀ c, (match get n S (p ++ [c]) ".".toList false true with | some (.ok _) => true | _ => false) = true ↔
      ∃ y, get n S (p ++ [c]) ".".toList false true = some (.ok y) := by
    intro c
    split
    · rename_i y hy
      exact ⟨fun _ => ⟨y, hy⟩, fun _ => rfl⟩
    · rename_i hn
      refine ⟨fun h => (by cases h), ?_⟩
      rintro ⟨y, hy⟩
      exact absurd hy (hn y)
  obtain ⟨pre, post, e1, e2, e3⟩ := listLoop_fails (kidsOf n order S p) [] (by
    refine ⟨_, List.mem_map.mpr ⟨c, hmem.mpr hc, rfl⟩, hmark.mpr hm, ?_⟩
    exact Bool.eq_false_iff.mpr (fun h => hf ((hfl c).mp h)))
  rw [List.nil_append] at e3
  -- the children before the one that fails
  unfold kidsOf at e1
  obtain ⟨cs1, cs2, ecs, ep1, _⟩ := List.map_eq_append_iff.mp e1
  have hsub : ∀ c ∈ cs1, c ∈ order (childNames S p) := fun c h => by rw [ecs]; simp [h]
  have hE : ∀ d ∈ (pre.filter (fun k => !hasPrefix k.1 whPrefix)).map entOf, ∃ c ∈ cs1, hasPrefix c whPrefix = false ∧ d = entOf (c,
      (match S.get? (p ++ [c]) with | some ⟨some h, _⟩ => some (pathBase h.name) | _ => none),
      (match get n S (p ++ [c]) ".".toList false true with | some (.ok _) => true | _ => false)) := by
    intro d hd
    obtain ⟨k, hk, rfl⟩ := List.mem_map.mp hd
    obtain ⟨hk, hw⟩ := List.mem_filter.mp hk
    rw [← ep1] at hk
    obtain ⟨c, hc, rfl⟩ := List.mem_map.mp hk
    exact ⟨c, hc, by simpa using hw, rfl⟩
  have hnames : ((pre.filter (fun k => !hasPrefix k.1 whPrefix)).map entOf).map (·.name) = cs1.filter (fun c => !hasPrefix c whPrefix) := by
    rw [← ep1, List.filter_map, List.map_map, List.map_map]
    have : ∀ c ∈ cs1.filter ((fun k : Str × Option Str × Bool => !hasPrefix k.1 whPrefix) ∘ fun c =>
        (c, (match S.get? (p ++ [c]) with | some ⟨some h, _⟩ => some (pathBase h.name) | _ => none),
          (match get n S (p ++ [c]) ".".toList false true with | some (.ok _) => true | _ => false))),
        (((fun d : DirEnt => d.name) ∘ entOf) ∘ fun c =>
        (c, (match S.get? (p ++ [c]) with | some ⟨some h, _⟩ => some (pathBase h.name) | _ => none),
          (match get n S (p ++ [c]) ".".toList false true with | some (.ok _) => true | _ => false))) c = id c := by
      intro c hc
      rw [List.mem_filter] at hc
      exact (entOf_kid hi (by simpa using hc.2) (hmem.mp (hsub c hc.1)) _).1
    exact (List.map_congr_left this).trans (List.map_id _)
  refine ⟨(pre.filter (fun k => !hasPrefix k.1 whPrefix)).map entOf, ?_, ?_, ?_⟩
  · rw [hnames]
    have := (ho _).nodup_iff.mpr (nodup_childNames hi.nodup p)
    rw [ecs] at this
    exact ((List.nodup_append.mp this).1).filter _
  · intro d hd
    obtain ⟨c, hc, hw, hd'⟩ := hE d hd
    have key : d.name = c ∧ (d.missing = true ↔ ∃ bd, S.get? (p ++ [c]) = some ⟨none, bd⟩) := by
      rw [hd']
      exact entOf_kid hi hw (hmem.mp (hsub c hc)) _
    obtain ⟨h1, h2⟩ := key
    rw [h1]
    refine ⟨hmem.mp (hsub c hc), hmark.mp hw, ?_, h2⟩
    rw [← hfl]
    exact e2 _ (by rw [← ep1]; exact List.mem_map.mpr ⟨c, hc, rfl⟩) hw
  · have hnd : nd.nonDir = false := by
      unfold Node.nonDir
      cases hh : nd.header with
      | none => rfl
      | some h => simp [hdir h hh, typeDir]
    intro m
    have hfirst : (freshReader nd).readDir srt (kidsOf n order S p) m =
        ({ freshReader nd with dirents := some ((pre.filter (fun k => !hasPrefix k.1 whPrefix)).map entOf) }, .error .other) := by
      unfold Reader.readDir
      rw [if_neg (by show ¬ (nd.nonDir = true); simp [hnd]), if_neg (by simp [freshReader])]
      simp only [freshReader, e3]
    simp only [hfirst]
    refine ⟨trivial, ?_⟩
    intro ns hns
    generalize (pre.filter (fun k => !hasPrefix k.1 whPrefix)).map entOf = E
    have hst : Listing srt (kidsOf n order S p) E { freshReader nd with dirents := some E } :=
      ⟨hnd, rfl, .inl rfl, Nat.zero_le _⟩
    obtain ⟨i1, i2, i3⟩ := readDirs_state ns _ hst hns
    have i2' : (readDirs srt (kidsOf n order S p) { freshReader nd with dirents := some E } (ns.map Int.ofNat)).pos = min ns.sum E.length := by
      rw [i2]; simp [freshReader]
    refine ⟨by rw [i3]; rfl, ?_, ?_⟩
    · intro m hm
      rw [(listing_next i1 hm).2.2, i2']
      by_cases hl : E.length ≤ ns.sum
      · rw [if_pos hl, if_pos (by omega)]
      · rw [if_neg hl, if_neg (by omega), Nat.min_eq_left (by omega)]
    · intro m hm
      rw [readDir_eq i1, readDirTail_eq (by exact i1.pos), if_neg (by omega)]
      simp only [i2']
      by_cases hl : E.length ≤ ns.sum
      · rw [Nat.min_eq_right hl, List.drop_eq_nil_of_le (Nat.le_refl _), List.drop_eq_nil_of_le hl]
      · rw [Nat.min_eq_left (by omega)]

/-- the root of the layer of `C71_violated`: `l` is such a child -/
example : (match loadLayers 9 [[exFile "a" [], exLink "l" "nowhere"]] false with
    | some (.ok S) => (S.get? ([] ++ ["l".toList])).isSome &&
        (match get 9 S ([] ++ ["l".toList]) ".".toList false true with | some (.ok _) => false | _ => true)
    | _ => false) = true := by decide +kernel

end Squash
