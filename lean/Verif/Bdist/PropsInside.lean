import Verif.Bdist.PropsLayer
import Verif.Bdist.Runner
/-!
C43: where files are installed.
-/
namespace Bdist
open Go Fsutil Python

/-- the directories of the scheme are clean absolute paths other than "/" -/
def Spec.CleanScheme (s : Scheme) : Prop := ∀ kind dir, (kind, dir) ∈ Spec.schemeDirs s → clean dir = dir ∧ isRooted dir = true ∧ dir ≠ ['/']

/-- the layer's file `n` is in one of the directories of the scheme -/
def Spec.InScheme (s : Scheme) (n : Str) : Prop :=
  ∃ kind dir, (kind, dir) ∈ Spec.schemeDirs s ∧ ('/' :: n = dir ∨ Spec.Parent dir ('/' :: n))

/-- a name that does not lead out of the directory it is resolved in -/
def Spec.Down (x : Str) : Prop := clean ("./".toList ++ x) ≠ "..".toList ∧ ¬ Spec.Parent "..".toList (clean ("./".toList ++ x))

theorem clean_abs {d : Str} (h1 : clean d = d) (h2 : isRooted d = true) (h3 : d ≠ ['/']) :
    ∃ cs, cs ≠ [] ∧ (∀ c ∈ cs, Plain c) ∧ d = '/' :: join ['/'] cs := by
  obtain ⟨cs, hc, e⟩ := clean_shape d
  rw [h1, h2] at e
  rw [h2] at hc
  obtain ⟨n, ds, rfl, hd, hn⟩ := hc
  have hn0 : n = 0 := hn rfl
  subst hn0
  simp only [List.replicate_zero, List.nil_append] at e
  refine ⟨ds, ?_, hd, ?_⟩
  · rintro rfl
    exact h3 (by rw [e]; rfl)
  · rw [e]; rfl

theorem dotdot_stays {c : Str} {st : List Str} (h : "..".toList ∈ st) : "..".toList ∈ cleanStep false st c := by
  unfold cleanStep
  split
  · exact h
  · split
    · split
      · simp
      · rename_i t st' 
        split
        · exact List.mem_cons_of_mem _ h
        · rename_i hne
          rcases List.mem_cons.mp h with h | h
          · exact absurd h.symm hne
          · exact h
    · exact List.mem_cons_of_mem _ h

theorem dotdot_foldl {l st : List Str} (h : "..".toList ∈ st) : "..".toList ∈ l.foldl (cleanStep false) st := by
  induction l generalizing st with
  | nil => exact h
  | cons c l ih => exact ih (dotdot_stays h)

/-- cleaning on top of other elements -/
theorem foldl_base {l st base : List Str} (h : "..".toList ∉ l.foldl (cleanStep false) st) :
    l.foldl (cleanStep false) (st ++ base) = l.foldl (cleanStep false) st ++ base := by
  induction l generalizing st with
  | nil => rfl
  | cons c l ih =>
    rw [List.foldl_cons] at h ⊢
    have hst : "..".toList ∉ cleanStep false st c := fun hm => h (dotdot_foldl hm)
    rw [List.foldl_cons, ← ih h]
    congr 1
    unfold cleanStep at hst ⊢
    split
    · rfl
    · rename_i h1
      rw [if_neg h1] at hst
      split
      · rename_i h2
        rw [if_pos h2] at hst
        cases st with
        | nil => exact absurd (by simp) hst
        | cons t st =>
          simp only [List.cons_append] at hst ⊢
          by_cases ht : t = ['.', '.']
          · rw [if_pos ht] at hst
            exact absurd (by simp) hst
          · rw [if_neg ht, if_neg ht]
      · rfl

theorem down_iff (x : Str) : Spec.Down x ↔ "..".toList ∉ cleanElems false (split '/' x) := by
  have hce := cleanElems_ok (rooted := false) (cs := split '/' x) (fun c h => split_no_sep h)
  have hcl : clean ("./".toList ++ x) = render false (cleanElems false (split '/' x)) := by
    show clean (['.'] ++ '/' :: x) = _
    unfold clean
    rw [isRooted_append (by simp), split_append]
    show render false (cleanElems false (['.'] :: split '/' x)) = _
    rw [cleanElems_skip _ _ (Or.inr rfl)]
  unfold Spec.Down
  rw [hcl]
  have key : ∀ cs, CleanElems false cs → ("..".toList ∈ cs ↔ render false cs = "..".toList ∨ Spec.Parent "..".toList (render false cs)) := by
    intro cs hc
    constructor
    · intro hm
      obtain ⟨n, ds, rfl, hd, _⟩ := hc
      cases n with
      | zero =>
        simp only [List.replicate_zero, List.nil_append] at hm
        exact absurd rfl (hd _ hm).2.2.1
      | succ n =>
        rw [List.replicate_succ, List.cons_append]
        cases hr : List.replicate n ['.', '.'] ++ ds with
        | nil => exact Or.inl rfl
        | cons a b =>
          refine Or.inr ⟨join ['/'] (a :: b), ?_⟩
          unfold render
          rw [if_neg (by decide), if_neg (by simp), join_cons (by simp)]
          rfl
    · rintro (h | h)
      · have h2 : "..".toList = render false ["..".toList] := rfl
        rw [h2] at h
        have := (render_inj hc ⟨1, [], rfl, by simp, by simp⟩ h).2
        rw [this]; simp
      · obtain ⟨i, h0, hi, he⟩ := (parent_iff hc _).mp h
        have hs := congrArg (split '/') he
        have hne : cs.take i ≠ [] := by
          intro e; have := congrArg List.length e; simp at this; rcases this with h | h; omega; subst h; simp at hi
        have hr : join ['/'] (cs.take i) = render false (cs.take i) := by unfold render; rw [if_neg (by decide), if_neg hne]
        rw [hr, split_render (fun c hm => (hc.elem c (List.mem_of_mem_take hm)).2.2)] at hs
        simp only [Bool.false_eq_true, if_false, if_neg hne] at hs
        have : "..".toList ∈ cs.take i := by rw [← hs]; decide
        exact List.mem_of_mem_take this
  rw [key _ hce]
  exact ⟨fun h hn => hn.elim h.1 h.2, fun h => ⟨fun e => h (Or.inl e), fun e => h (Or.inr e)⟩⟩

theorem join_append {a b : List Str} (ha : a ≠ []) (hb : b ≠ []) : join ['/'] (a ++ b) = join ['/'] a ++ '/' :: join ['/'] b := by
  induction a with
  | nil => exact absurd rfl ha
  | cons x a ih =>
    cases a with
    | nil => rw [List.cons_append, List.nil_append, join_cons hb]; simp [join]
    | cons y a =>
      rw [List.cons_append, join_cons (by simp), ih (by simp), join_cons (p := x) (ps := y :: a) (by simp)]
      simp

/-- resolving a name that does not lead out -/
theorem join_down {cs : List Str} (hne : cs ≠ []) (hp : ∀ c ∈ cs, Plain c) {x : Str} (hx : Spec.Down x) :
    pathJoin [join ['/'] cs, x] = join ['/'] (cs ++ cleanElems false (split '/' x)) := by
  have hc : CleanElems false cs := ⟨0, cs, by simp, hp, by simp⟩
  have hr : render false cs = join ['/'] cs := by unfold render; rw [if_neg (by decide), if_neg hne]
  have hj : join ['/'] cs ≠ [] := join_ne_nil hne (fun c h => (hp c h).1)
  rw [join_two hj]
  split
  · rename_i h0
    subst h0
    rw [← hr, clean_render hc, hr]
    show _ = join ['/'] (cs ++ [])
    rw [List.append_nil]
  · have hrt : isRooted (join ['/'] cs) = false := by
      rw [← hr]; exact isRooted_render (fun c h => ⟨(hc.elem c h).1, (hc.elem c h).2.2⟩)
    have hsp : split '/' (join ['/'] cs) = cs := by
      have := split_render (rooted := false) (fun c h => (hc.elem c h).2.2)
      simpa [hr, hne] using this
    unfold clean
    rw [isRooted_append hj, hrt, split_append, hsp]
    have he : cleanElems false (cs ++ split '/' x) = cs ++ cleanElems false (split '/' x) := by
      have hd := (down_iff x).mp hx
      unfold cleanElems at hd ⊢
      rw [List.mem_reverse] at hd
      rw [List.foldl_append, foldl_plain hp, List.append_nil]
      have := foldl_base (st := []) (base := cs.reverse) hd
      rw [List.nil_append] at this
      rw [this]; simp
    rw [he]
    unfold render
    rw [if_neg (by decide), if_neg (by simp [hne])]

theorem join_inside {cs : List Str} (hne : cs ≠ []) (hp : ∀ c ∈ cs, Plain c) {x : Str} (hx : Spec.Down x) :
    '/' :: pathJoin [join ['/'] cs, x] = '/' :: join ['/'] cs ∨ Spec.Parent ('/' :: join ['/'] cs) ('/' :: pathJoin [join ['/'] cs, x]) := by
  rw [join_down hne hp hx]
  by_cases he : cleanElems false (split '/' x) = []
  · left; rw [he, List.append_nil]
  · right
    rw [join_append hne he]
    exact ⟨_, rfl⟩

/-- what follows an ordinary element in a clean path is ordinary -/
theorem plain_after {as bs : List Str} {c : Str} (hc : Plain c) (h : CleanElems false (as ++ c :: bs)) : ∀ b ∈ bs, Plain b := by
  obtain ⟨n, ds, e, hd, _⟩ := h
  intro b hb
  have hn : n ≤ as.length := by
    apply Classical.byContradiction
    intro hlt
    have h1 : (as ++ c :: bs)[as.length]? = some c := by simp
    rw [e, List.getElem?_append_left (by simp; omega), List.getElem?_replicate] at h1
    rw [if_pos (by omega)] at h1
    cases h1
    exact absurd rfl hc.2.2.1
  obtain ⟨i, hi, rfl⟩ := List.getElem_of_mem hb
  have h1 : (as ++ c :: bs)[as.length + 1 + i]? = some bs[i] := by
    rw [List.getElem?_append_right (by omega)]
    rw [show as.length + 1 + i - as.length = i + 1 by omega]
    simp [hi]
  rw [e, List.getElem?_append_right (by simp; omega)] at h1
  exact hd _ (List.mem_of_getElem? h1)

theorem down_plain {l : List Str} (hl : l ≠ []) (h : ∀ c ∈ l, Plain c) : Spec.Down (join ['/'] l) := by
  rw [down_iff]
  have hc : CleanElems false l := ⟨0, l, by simp, h, by simp⟩
  have hr : render false l = join ['/'] l := by unfold render; rw [if_neg (by decide), if_neg hl]
  rw [← hr, elems_render hc]
  intro hm
  exact absurd rfl (h _ hm).2.2.1

theorem dataName_plain {dir : Str} (h : '/' ∉ dir) : Plain (dataName dir) := by
  unfold dataName
  have hno : '/' ∉ trimSuffix dir ".dist-info".toList := by
    intro hm
    unfold trimSuffix at hm
    split at hm
    · exact h (List.mem_of_mem_take hm)
    · exact h hm
  have hlen : 5 ≤ (trimSuffix dir ".dist-info".toList ++ ".data".toList).length := by simp
  refine ⟨?_, ?_, ?_, ?_⟩
  · intro e; rw [e] at hlen; simp at hlen
  · intro e; rw [e] at hlen; simp at hlen
  · intro e; rw [e] at hlen; simp at hlen
  · rw [List.mem_append]
    rintro (hm | hm)
    · exact hno hm
    · exact absurd hm (by decide)

/-- the rest of the name of a file in the data directory does not lead out of anything -/
theorem rest_down {d k kind rest : Str} (hd : ∃ as c, Plain c ∧ d = join ['/'] (as ++ [c]) ∧ ∀ a ∈ as, '/' ∉ a) (hk : Spec.Rel k)
    (he : k = d ++ '/' :: (kind ++ '/' :: rest)) : Spec.Down rest := by
  obtain ⟨as, c, hc, rfl, has⟩ := hd
  obtain ⟨cs, hcs, hke⟩ := relative_clean_elems hk.1 hk.2
  have hne : cs ≠ [] := by
    rintro rfl
    rw [he] at hke
    have hm : '/' ∈ render false [] := by rw [← hke]; simp
    exact absurd hm (by decide)
  have hs := split_render (rooted := false) (fun c h => (hcs.elem c h).2.2)
  simp only [Bool.false_eq_true, if_false, if_neg hne] at hs
  have hsd : split '/' (join ['/'] (as ++ [c])) = as ++ [c] :=
    split_join (by simp) (fun a ha => by
      rcases List.mem_append.mp ha with h | h
      · exact has a h
      · rw [List.mem_singleton.mp h]; exact hc.2.2.2)
  rw [← hke, he, split_append, split_append, hsd] at hs
  have hsplit : cs = as ++ c :: (split '/' kind ++ split '/' rest) := by rw [← hs]; simp
  rw [hsplit] at hcs
  have hp := plain_after hc hcs
  have hpr : ∀ b ∈ split '/' rest, Plain b := fun b hb => hp b (List.mem_append_right _ hb)
  have hj := down_plain (split_ne_nil '/' rest) hpr
  rwa [join_split] at hj

theorem clean_proper {s : Scheme} (h : Spec.CleanScheme s) : Spec.ProperScheme s := by
  intro kind dir hm
  obtain ⟨h1, h2, h3⟩ := h kind dir hm
  obtain ⟨cs, hne, hp, rfl⟩ := clean_abs h1 h2 h3
  obtain ⟨c, cs, rfl⟩ := List.exists_cons_of_ne_nil hne
  obtain ⟨a, c, rfl⟩ := List.exists_cons_of_ne_nil (hp c (by simp)).1
  have ha : a ≠ '/' := fun e => (hp (a :: c) (by simp)).2.2.2 (by simp [e])
  cases cs with
  | nil => exact ⟨a, c, rfl, ha⟩
  | cons b cs => rw [join_cons (by simp)]; exact ⟨a, _, rfl, ha⟩

/-- a directory of the platform, as it is used -/
theorem scheme_elems {plat p : Platform} (hp : Spec.CleanScheme plat.scheme) (hs : sanitizePlatform plat = .ok p) {kind dir : Str}
    (h : (kind, dir) ∈ Spec.schemeDirs p.scheme) :
    ∃ cs, cs ≠ [] ∧ (∀ c ∈ cs, Plain c) ∧ dir = join ['/'] cs ∧ (kind, '/' :: dir) ∈ Spec.schemeDirs plat.scheme := by
  obtain ⟨d, hd, rfl⟩ := (sanitize_scheme hs kind dir).mp h
  obtain ⟨c, q, rfl, hc⟩ := clean_proper hp kind d hd
  obtain ⟨h1, h2, h3⟩ := hp kind _ hd
  obtain ⟨cs, hne, hpl, he⟩ := clean_abs h1 h2 h3
  rw [trim_slash]
  exact ⟨cs, hne, hpl, (List.cons.inj he).2, hd⟩

theorem info_plain {env : Env} {zip : List ZFile} {dir : Str} {get : Str → Str} (h : parseWheel env zip = .ok (dir, get)) : Plain dir := by
  unfold parseWheel at h
  cases hd : distInfoDir zip with
  | error e => rw [hd] at h; cases h
  | ok d =>
    rw [hd] at h
    simp only at h
    split at h
    · cases h
    · split at h
      · cases h
      · cases h
        obtain ⟨h1, ⟨f, _, hf⟩, _⟩ := (C50_dist_info zip _).mp hd
        exact top_plain hf h1

theorem plain_down {c : Str} (h : Plain c) : Spec.Down c := by
  have := down_plain (l := [c]) (by simp) (by simpa using h)
  simpa [join] using this

theorem dataDir_elems {cs : List Str} (hne : cs ≠ []) (hp : ∀ c ∈ cs, Plain c) {dir : Str} (hd : '/' ∉ dir) :
    dataDir (join ['/'] cs) dir = join ['/'] (cs ++ [dataName dir]) := by
  have h := dataName_plain hd
  unfold dataDir
  rw [join_down hne hp (plain_down h)]
  have : split '/' (dataName dir) = [dataName dir] := by
    have := split_join (sep := '/') (ps := [dataName dir]) (by simp) (by simpa using h.2.2.2)
    simpa [join] using this
  rw [this, cleanElems_id ⟨0, [dataName dir], by simp, by simpa using h, by simp⟩]

/-- the files in the map when the compiler is called are in the directories of the scheme -/
theorem before_inside {env : Env} {plat p : Platform} (hp : Spec.CleanScheme plat.scheme) (hs : sanitizePlatform plat = .ok p)
    {minTime : Option Int} {zip : List ZFile} (hdown : ∀ f ∈ zip, Spec.Down f.hdr.name) {dir : Str} {get : Str → Str}
    (h1 : parseWheel env zip = .ok (dir, get)) :
    BeforeCompile (Spec.InScheme plat.scheme) env p (rootDir p get) dir (unpack minTime (rootDir p get) zip) := by
  intro m1 types order m2 hrun hperm hrw
  obtain ⟨kind, hroot⟩ := rootDir_mem p get
  obtain ⟨cs, hne, hpl, hdst, hmem⟩ := scheme_elems hp hs hroot
  have hrel := sanitize_rel (clean_proper hp) hs
  have hdir := info_plain h1
  -- unpacking
  have hu : ∀ n ∈ (unpack minTime (rootDir p get) zip).keys, Spec.InScheme plat.scheme n := by
    have hfile : ∀ f ∈ zip, Spec.InScheme plat.scheme (pathJoin [rootDir p get, f.hdr.name]) := by
      intro f hf
      refine ⟨kind, _, hmem, ?_⟩
      rw [hdst]
      exact join_inside hne hpl (hdown f hf)
    unfold unpack
    suffices ∀ l m : List _, (∀ f ∈ l, f ∈ zip) → (∀ n ∈ Map.keys m, Spec.InScheme plat.scheme n) →
        ∀ n ∈ Map.keys (l.foldl (fun (vfs : Map Ref) (f : ZFile) => vfs.set (pathJoin [rootDir p get, f.hdr.name])
          (.zip (createHdr minTime (pathJoin [rootDir p get, f.hdr.name]) f.hdr) f.content none)) m), Spec.InScheme plat.scheme n from
      this zip [] (fun f h => h) (fun n h => by cases h)
    intro l
    induction l with
    | nil => exact fun m _ h => h
    | cons f l ih =>
      intro m hl hm
      refine ih _ (fun g hg => hl g (List.mem_cons_of_mem _ hg)) ?_
      intro n hn
      rw [Map.mem_keys_iff, Map.get?_set] at hn
      split at hn
      · rename_i e; rw [e]; exact hfile f (hl f (by simp))
      · exact hm n ((Map.mem_keys_iff m n).mpr hn)
  have hz := unpack_good (hrel kind _ hroot).1 (hrel kind _ hroot).2 minTime zip
  have hnd := nodup_perm (spread_good hrel hz hrun rfl).2 hperm
  -- spreading
  have h1 : ∀ n ∈ m1.keys, Spec.InScheme plat.scheme n := by
    refine (RangeRun.inv (fun m (_ : Map Str) => ZGood m ∧ ∀ n ∈ m.keys, Spec.InScheme plat.scheme n) ?_ hrun (RangeState.Pending.start _)
      ⟨hz, hu⟩ m1 types rfl).2
    intro k m x ops x' hk ⟨hm, hin⟩ hb
    by_cases hi : Spec.In (dataDir (rootDir p get) dir) k
    · by_cases hmv : ∃ n kind, Spec.Moves p.scheme (dataDir (rootDir p get) dir) k n kind
      · obtain ⟨n, kd, hmv⟩ := hmv
        rw [Map.mem_keys_iff] at hk
        cases hr : m.get? k with
        | none => exact absurd hr hk
        | some r =>
          rw [spreadBody_moves hmv hr] at hb
          simp only [Except.ok.injEq, Prod.mk.injEq] at hb
          obtain ⟨rfl, rfl⟩ := hb
          obtain ⟨f1, f2, f3⟩ := hm.file k r hr
          refine ⟨(hm.del k).set (schemeDir_rel hrel hmv) (placed_rename f1 f2) (renameRef_plainly f3), ?_⟩
          intro j hj
          have hj' : j ∈ ((m.del k).set n (renameRef n r)).keys := hj
          rw [Map.mem_keys_iff, Map.get?_set, Map.get?_del] at hj'
          split at hj'
          · rename_i e
            subst e
            obtain ⟨rest, dd, hke, hkd, rfl⟩ := hmv
            obtain ⟨es, ene, epl, rfl, emem⟩ := scheme_elems hp hs hkd
            refine ⟨kd, _, emem, join_inside ene epl ?_⟩
            rcases hke with ⟨_, rfl⟩ | hke
            · rw [down_iff]; decide
            · refine rest_down ⟨cs, dataName dir, dataName_plain hdir.2.2.2, ?_, fun a ha => (hpl a ha).2.2.2⟩ f1 hke
              rw [hdst, dataDir_elems hne hpl hdir.2.2.2]
          · split at hj'
            · exact absurd rfl hj'
            · exact hin j ((Map.mem_keys_iff m j).mpr hj')
      · rw [spreadBody_fails hi hmv] at hb; cases hb
    · rw [spreadBody_skip hi] at hb
      cases hb
      exact ⟨hm, hin⟩
  -- the other steps
  have h2 : ∀ n ∈ m2.keys, Spec.InScheme plat.scheme n := by
    intro n hn
    apply h1
    rw [Map.mem_keys_iff] at hn ⊢
    obtain ⟨g1, g2⟩ := rewritePython_get hnd hrw n
    by_cases hm : (n, "scripts".toList) ∈ order
    · obtain ⟨r', _, hr⟩ := g1 hm
      intro e
      rw [e] at hr
      cases hr
    · rw [← g2 hm]; exact hn
  intro n hn
  apply h2
  rw [Map.mem_keys_iff] at hn ⊢
  intro e
  apply hn
  unfold removeRecords
  simp only [Map.get?_del, e, ite_self]

/-- the compiler puts its results into the directories of the scheme if the sources are there -/
def Spec.InsideCompiler (env : Env) (s : Scheme) : Prop :=
  ∀ t dirs srcs outs, Spec.Sources srcs → (∀ f ∈ srcs, Spec.InScheme s f.fullName) → env.compile t dirs srcs = .ok outs →
    ∀ o ∈ outs, Spec.InScheme s o.fullName

theorem sources_inside {S : Str → Prop} {m srcs : Map Ref} (hm : PGood m) (h : srcs.Perm (m.filter isPython)) (hS : ∀ n ∈ m.keys, S n) :
    ∀ f ∈ srcs.map (·.2), S f.fullName := by
  intro s hsm
  obtain ⟨e, he, rfl⟩ := List.mem_map.mp hsm
  obtain ⟨he1, _⟩ := List.mem_filter.mp (h.mem_iff.mp he)
  have hg := Map.get?_of_mem hm.wf he1
  rw [(hm.toGood.file _ _ hg).2]
  exact hS _ ((Map.mem_keys_iff _ _).mpr (by rw [hg]; exact fun e => (nomatch e)))

/-- **C43** for archives in which no name leads upwards, and directories given as clean absolute paths: every file in the
map that `installToVFS` returns is in one of the directories of the scheme; for all orders of its loops. -/
theorem C43_inside_partial (env : Env) (plat p : Platform) (hp : Spec.CleanScheme plat.scheme) (hs : sanitizePlatform plat = .ok p)
    (hc : Spec.InsideCompiler env plat.scheme) (minTime : Option Int) (maxTime : Int) (zip : List ZFile) (hdown : ∀ f ∈ zip, Spec.Down f.hdr.name)
    (m : Map Ref) (dir : Str) (h : VfsRun env p minTime maxTime zip (.ok (m, dir))) :
    ∀ n ∈ m.keys, Spec.InScheme plat.scheme n := by
  cases h with
  | @done dir get vfs h1 h2 h3 =>
  obtain ⟨kind, hroot⟩ := rootDir_mem p get
  have hrel := sanitize_rel (clean_proper hp) hs
  have hz := unpack_good (hrel kind _ hroot).1 (hrel kind _ hroot).2 minTime zip
  obtain ⟨m1, types, m2, outs, hrun, _, g2, ⟨order, hperm, _, hrw⟩, ⟨srcs, hsrcs, hcomp⟩, rfl⟩ := spreadRun_inv hrel hz h3
  have hrm := before_inside hp hs hdown h1 m1 types order m2 hrun hperm hrw
  have ho := hc _ _ _ _ (sources_of (remove_good g2) hsrcs) (sources_inside (remove_good g2) hsrcs hrm) hcomp
  clear hcomp h3
  generalize removeRecords (rootDir p get) dir m2 = m3 at hrm
  induction outs generalizing m3 with
  | nil => exact hrm
  | cons o outs ih =>
    refine ih (fun x hx => ho x (List.mem_cons_of_mem _ hx)) _ ?_
    intro n hn
    rw [Map.mem_keys_iff, Map.get?_set] at hn
    split at hn
    · rename_i e; rw [e]; exact ho o (by simp)
    · exact hrm n ((Map.mem_keys_iff m3 n).mpr hn)

end Bdist
