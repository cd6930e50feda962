import Verif.Bdist.Command
import Verif.Bdist.PropsScripts
import Verif.Bdist.PropsVerified
/-! What the hooks of `ocibuild layer wheel` find and leave behind. -/
namespace Bdist
open Go Fsutil Python

namespace Spec

/-- a compiler for byte code: for sources in the directories of the scheme, the order of the sources does not matter to it, and its
results are regular files called `….pyc` in these directories -/
structure ByteCompiler (env : Env) (s : Scheme) : Prop where
  orderly : OrderlyOn (InScheme s) env
  tidy : TidyCompiler env
  inside : InsideCompiler env s
  code : ∀ t dirs srcs outs, Sources srcs → (∀ f ∈ srcs, InScheme s f.fullName) → env.compile t dirs srcs = .ok outs → ∀ o ∈ outs, ∃ f i b, o = .other f ∧ f.info = some i ∧
    i.typeflag = typeReg ∧ f.name = b ++ ".pyc".toList

/-- `new` is `old` with the interpreter named in the first line replaced -/
def NewInterpreter (plat : Platform) (old new : Bytes) : Prop :=
  ∃ rest, (old = enc "#!pythonw".toList ++ rest ∧ new = enc "#!".toList ++ enc plat.graphicalShebang ++ rest) ∨
    (old = enc "#!python".toList ++ rest ∧ new = enc "#!".toList ++ enc plat.consoleShebang ++ rest)

end Spec

/-- the files that can be in the map: directories and regular files; the record of a script is that of its content before -/
structure RefOK (digest : Str → Bytes → Str) (p : Platform) (r : Ref) : Prop where
  type : ∀ i, r.info = some i → i.typeflag ≠ typeDir → i.typeflag = typeReg ∧ i.size = r.size
  dir : ∀ i, r.info = some i → (r.isDir = false ↔ i.typeflag ≠ typeDir)
  record : ∀ h c rec, r = .zip h c (some rec) → ∃ old new, c = some new ∧ Spec.NewInterpreter p old new ∧
    rec = ("sha256=".toList ++ digest "sha256".toList old, (old.length : Int))

theorem zip_type (h : ZHdr) (c : Option Bytes) (rec : Option (Str × Int)) :
    (∀ i, (Ref.zip h c rec).info = some i → i.typeflag ≠ typeDir → i.typeflag = typeReg ∧ i.size = (Ref.zip h c rec).size) ∧
    ∀ i, (Ref.zip h c rec).info = some i → ((Ref.zip h c rec).isDir = false ↔ i.typeflag ≠ typeDir) := by
  have hne : typeReg ≠ typeDir := by decide
  constructor
  · intro i hi hd
    simp only [Ref.info, zipInfo] at hi
    split at hi
    · cases hi; exact absurd rfl hd
    · split at hi
      · cases hi; exact ⟨rfl, rfl⟩
      · cases hi
  · intro i hi
    simp only [Ref.info, zipInfo] at hi
    split at hi
    · rename_i hd
      cases hi
      simp [Ref.isDir, hd]
    · rename_i hd
      split at hi
      · cases hi
        simp [Ref.isDir, hd, hne]
      · cases hi

theorem other_type {f : FileRef} {i : Hdr} (h : f.info = some i) (ht : i.typeflag = typeReg) (digest : Str → Bytes → Str) (p : Platform) :
    RefOK digest p (.other f) := by
  have hne : typeReg ≠ typeDir := by decide
  refine ⟨?_, ?_, fun _ _ _ e => (nomatch e)⟩
  · intro j hj _
    simp only [Ref.info] at hj
    rw [h] at hj
    cases hj
    exact ⟨ht, by simp [Ref.size, h]⟩
  · intro j hj
    simp only [Ref.info] at hj
    rw [h] at hj
    cases hj
    simp [Ref.isDir, h, ht, hne]

theorem memFile_ok (t : Int) (name : Str) (mode : Int) (c : Bytes) (digest : Str → Bytes → Str) (p : Platform) : RefOK digest p (memFile t name mode c) :=
  other_type rfl rfl digest p

theorem newContent_ok {digest : Str → Bytes → Str} {p : Platform} {old new : Bytes} {r r' : Ref} (h : Spec.NewContent digest old new r r')
    (hn : Spec.NewInterpreter p old new) : RefOK digest p r' := by
  obtain ⟨_, h', _, rfl, _⟩ := h
  refine ⟨(zip_type _ _ _).1, (zip_type _ _ _).2, ?_⟩
  intro _ _ rec e
  cases e
  exact ⟨old, new, rfl, hn, rfl⟩

theorem plainly_ok {digest : Str → Bytes → Str} {p : Platform} {r : Ref} (h : Plainly r) : RefOK digest p r := by
  obtain ⟨h, c, rfl⟩ := h
  exact ⟨(zip_type _ _ _).1, (zip_type _ _ _).2, fun _ _ _ e => (nomatch e)⟩

theorem rewritten_ok {digest : Str → Bytes → Str} {p : Platform} {r r' : Ref} (h : Spec.Rewritten digest p r r') (hr : Plainly r) : RefOK digest p r' := by
  obtain ⟨old, _, ⟨rest, e, hx⟩ | ⟨rest, e, _, hx⟩ | ⟨_, rfl⟩⟩ := h
  · exact newContent_ok hx ⟨rest, Or.inl ⟨e, rfl⟩⟩
  · exact newContent_ok hx ⟨rest, Or.inr ⟨e, rfl⟩⟩
  · exact plainly_ok hr

theorem outs_get {outs : List Ref} {m : Map Ref} {n : Str} {r : Ref} (h : (outs.foldl (fun m r => m.set r.fullName r) m).get? n = some r) :
    (r ∈ outs ∧ r.fullName = n) ∨ m.get? n = some r := by
  induction outs generalizing m with
  | nil => exact Or.inr h
  | cons o outs ih =>
    rcases ih h with ⟨h1, h2⟩ | h1
    · exact Or.inl ⟨List.mem_cons_of_mem _ h1, h2⟩
    · rw [Map.get?_set] at h1
      split at h1
      · rename_i e; cases h1; exact Or.inl ⟨List.mem_cons_self .., e.symm⟩
      · exact Or.inr h1

/-- names in the directories of a clean scheme do not lead upwards -/
theorem inScheme_down {s : Scheme} (hs : Spec.CleanScheme s) {n : Str} (hr : Spec.Rel n) (h : Spec.InScheme s n) : Spec.Down n := by
  obtain ⟨kind, dir, hm, h⟩ := h
  obtain ⟨h1, h2, h3⟩ := hs kind dir hm
  obtain ⟨cs, hne, hp, rfl⟩ := clean_abs h1 h2 h3
  obtain ⟨ts, hts, rfl⟩ := relative_clean_elems hr.1 hr.2
  have hj : ∃ bs, ts = cs ++ bs := by
    have hcs : split '/' (join ['/'] cs) = cs := split_join hne (fun c h => (hp c h).2.2.2)
    have hsp := split_render (rooted := false) (fun c h => (hts.elem c h).2.2)
    simp only [Bool.false_eq_true, if_false] at hsp
    have hrc : render false cs = join ['/'] cs := by unfold render; rw [if_neg (by decide), if_neg hne]
    rcases h with h | ⟨x, h⟩
    · have e := (List.cons.inj h).2
      rw [← hrc] at e
      exact ⟨[], by rw [List.append_nil]; exact (render_inj hts (plain_clean hp) e).2⟩
    · rw [List.cons_append] at h
      have e := (List.cons.inj h).2
      have htne : ts ≠ [] := by
        rintro rfl
        have hsl : '/' ∈ render false [] := by rw [e]; simp
        exact absurd hsl (by decide)
      rw [if_neg htne, e, split_append, hcs] at hsp
      exact ⟨_, hsp.symm⟩
  obtain ⟨bs, rfl⟩ := hj
  obtain ⟨c, cs, rfl⟩ := List.exists_cons_of_ne_nil hne
  have hb := plain_after (as := []) (hp c (by simp)) (by simpa using hts)
  refine down_of_render ?_
  intro x hx
  rw [List.cons_append] at hx
  rcases List.mem_cons.mp hx with rfl | hx
  · exact hp _ (by simp)
  · exact hb x hx

/-- what `installToVFS` leaves to the hooks -/
structure Handed (digest : Str → Bytes → Str) (plat p : Platform) (zip : List ZFile) (m : Map Ref) (cs : List Str) (info : Str) : Prop where
  plain : ∀ c ∈ cs ++ [info], Plain c
  root : '/' :: render false cs = plat.scheme.pureLib ∨ '/' :: render false cs = plat.scheme.platLib
  named : Spec.TheInfoDir zip info
  tame : Tame m
  noRecord : render false (cs ++ [info]) ++ "/RECORD".toList ∉ m.keys
  refs : ∀ n r, m.get? n = some r → RefOK digest p r

theorem parse_info {env : Env} {zip : List ZFile} {dir : Str} {get : Str → Str} (h : parseWheel env zip = .ok (dir, get)) : Spec.TheInfoDir zip dir := by
  unfold parseWheel at h
  cases hd : distInfoDir zip with
  | error e => rw [hd] at h; cases h
  | ok d =>
    rw [hd] at h
    simp only at h
    split at h
    · cases h
    · split at h
      · cases h
      · cases h; exact (C50_dist_info zip _).mp hd

theorem handed {env : Env} {plat p : Platform} (hp : Spec.CleanScheme plat.scheme) (hs : sanitizePlatform plat = .ok p)
    (hc : Spec.ByteCompiler env plat.scheme) {minTime : Option Int} {t : Int} {zip : List ZFile} (hdown : ∀ f ∈ zip, Spec.Down f.hdr.name)
    {m : Map Ref} {dir : Str} (h : VfsRun env p minTime t zip (.ok (m, dir))) :
    ∃ cs info, dir = render false (cs ++ [info]) ∧ Handed env.digest plat p zip m cs info := by
  have hrel := sanitize_rel (clean_proper hp) hs
  have hgood := vfsRun_good hc.tidy hrel h
  have hin := C43_inside_partial env plat p hp hs hc.inside minTime t zip hdown m dir h
  have htame : Tame m := by
    refine ⟨hgood, ?_⟩
    intro k hk
    obtain ⟨r, hr⟩ := get_some hk
    exact inScheme_down hp (hgood.file k r hr).1 (hin k hk)
  cases h with
  | @done info get vfs h1 h2 h3 =>
  obtain ⟨kind, hroot⟩ := rootDir_mem p get
  obtain ⟨cs, hne, hpl, hdst, _⟩ := scheme_elems hp hs hroot
  have hplain := info_plain h1
  have hrc : render false cs = join ['/'] cs := by unfold render; rw [if_neg (by decide), if_neg hne]
  have hall : ∀ c ∈ cs ++ [info], Plain c := by
    intro c hc
    rcases List.mem_append.mp hc with h | h
    · exact hpl c h
    · rw [List.mem_singleton] at h; subst h; exact hplain
  refine ⟨cs, info, ?_, hall, ?_, parse_info h1, htame, ?_, ?_⟩
  · rw [hdst, ← hrc, join_snoc hpl hplain]
  · have hsl : '/' :: rootDir p get = plat.scheme.pureLib ∨ '/' :: rootDir p get = plat.scheme.platLib := by
      have hk : ∃ kind, (kind = "purelib".toList ∨ kind = "platlib".toList) ∧ (kind, rootDir p get) ∈ Spec.schemeDirs p.scheme := by
        unfold rootDir Spec.schemeDirs
        split
        · exact ⟨_, Or.inl rfl, by simp⟩
        · exact ⟨_, Or.inr rfl, by simp⟩
      obtain ⟨kd, hkd, hmem⟩ := hk
      obtain ⟨_, _, _, _, hx⟩ := scheme_elems hp hs hmem
      unfold Spec.schemeDirs at hx
      simp only [List.mem_cons, Prod.mk.injEq, List.not_mem_nil, or_false] at hx
      rcases hkd with rfl | rfl
      · rcases hx with hx | hx | hx | hx | hx
        · exact Or.inl hx.2
        all_goals exact absurd hx.1 (by decide)
      · rcases hx with hx | hx | hx | hx | hx
        · exact absurd hx.1 (by decide)
        · exact Or.inr hx.2
        all_goals exact absurd hx.1 (by decide)
    rw [hdst, ← hrc] at hsl
    exact hsl
  · intro hk
    obtain ⟨r, hr⟩ := get_some hk
    obtain ⟨m1, types, m2, outs, hrun, _, g2, ⟨order, hperm, _, hrw⟩, ⟨srcs, hsrcs, hcomp⟩, rfl⟩ := spreadRun_inv hrel (unpack_good (hrel kind _ hroot).1 (hrel kind _ hroot).2 minTime zip) h3
    rcases outs_get hr with ⟨ho, hn⟩ | hget
    · obtain ⟨f, i, b, rfl, _, _, hb⟩ := hc.code _ _ _ _ (sources_of (remove_good g2) hsrcs)
        (sources_inside (remove_good g2) hsrcs (before_inside hp hs hdown h1 m1 types order m2 hrun hperm hrw)) hcomp r ho
      have hb' : f.name = _ := hn
      rw [hb] at hb'
      have hl := congrArg List.getLast? hb'
      have h4 : (b ++ ".pyc".toList).getLast? = some 'c' := by rw [List.getLast?_append]; rfl
      have h5 : (render false (cs ++ [info]) ++ "/RECORD".toList).getLast? = some 'D' := by rw [List.getLast?_append]; rfl
      rw [h4, h5] at hl
      exact absurd hl (by decide)
    · have hR : Plain "RECORD".toList := by unfold Plain; decide +kernel
      have hcl : clean (info ++ '/' :: "RECORD".toList) = info ++ '/' :: "RECORD".toList := by
        have hc : CleanElems false [info, "RECORD".toList] := plain_clean (by
          intro c hc
          rcases List.mem_cons.mp hc with rfl | hc
          · exact hplain
          · rw [List.mem_singleton.mp hc]; exact hR)
        have he : render false [info, "RECORD".toList] = info ++ '/' :: "RECORD".toList := by simp [render, join]
        rw [← he, clean_render hc]
      obtain ⟨e1, e2⟩ := two_at hne hpl hplain hR hcl
      have hname : render false (cs ++ [info]) ++ "/RECORD".toList = pathJoin [rootDir p get, info, "RECORD".toList] := by
        rw [hdst, ← e1, e2, slash_render hne, hrc]
        simp
      rw [hname, (remove_get _ _ _ _).1 (Or.inl rfl)] at hget
      cases hget
  · intro n r hr
    obtain ⟨m1, types, m2, outs, hrun, g1, g2, ⟨order, hperm, hnd, hrw⟩, ⟨srcs, hsrcs, hcomp⟩, rfl⟩ :=
      spreadRun_inv hrel (unpack_good (hrel kind _ hroot).1 (hrel kind _ hroot).2 minTime zip) h3
    rcases outs_get hr with ⟨ho, _⟩ | hget
    · obtain ⟨f, i, b, rfl, hi, ht, _⟩ := hc.code _ _ _ _ (sources_of (remove_good g2) hsrcs)
        (sources_inside (remove_good g2) hsrcs (before_inside hp hs hdown h1 m1 types order m2 hrun hperm hrw)) hcomp r ho
      exact other_type hi ht _ _
    · obtain ⟨q1, q2⟩ := remove_get (rootDir p get) info m2 n
      have hrem : ¬ Spec.Removed (rootDir p get) info n := by
        intro hx
        rw [q1 hx] at hget; cases hget
      rw [q2 hrem] at hget
      obtain ⟨a1, a2⟩ := C47_rewrite env.digest p order hnd m1 m2 hrw n
      by_cases hsc : (n, "scripts".toList) ∈ order
      · obtain ⟨r0, r', b1, b2, b3⟩ := a1 hsc
        rw [hget] at b2
        cases b2
        exact rewritten_ok b3 (g1.file n r0 b1).2.2
      · rw [a2 hsc] at hget
        exact plainly_ok (g1.file n r hget).2.2

namespace Spec

/-- the entry points `cfg` of a wheel whose `.dist-info` directory is `dir` can be installed side by side: every script has a place of
its own in the scripts directory, and none is the RECORD file -/
structure Fits (p : Platform) (dir : Str) (cfg : Config) : Prop where
  own : OwnPlaces p cfg
  down : ∀ key val i, Declares p cfg key val i → Down key
  record : ∀ key val i, Declares p cfg key val i → pathJoin [p.scheme.scripts.drop 1, key] ≠ dir ++ "/RECORD".toList

end Spec

/-- the scripts directory -/
theorem scripts_elems {plat p : Platform} (hp : Spec.CleanScheme plat.scheme) (hi : plat.init = .ok p) :
    ∃ ss, ss ≠ [] ∧ (∀ c ∈ ss, Plain c) ∧ p.scheme.scripts.drop 1 = join ['/'] ss := by
  have hm : ("scripts".toList, plat.scheme.scripts) ∈ Spec.schemeDirs plat.scheme := by unfold Spec.schemeDirs; simp
  obtain ⟨h1, h2, h3⟩ := hp _ _ hm
  obtain ⟨ss, hne, hpl, he⟩ := clean_abs h1 h2 h3
  refine ⟨ss, hne, hpl, ?_⟩
  rw [init_scheme hi, he]; rfl

theorem place_elems {plat p : Platform} (hp : Spec.CleanScheme plat.scheme) (hi : plat.init = .ok p) {key : Str} (hk : Spec.Down key) :
    ∃ ts, (∀ c ∈ ts, Plain c) ∧ pathJoin [p.scheme.scripts.drop 1, key] = render false ts := by
  obtain ⟨ss, hne, hpl, he⟩ := scripts_elems hp hi
  have hd := (down_iff key).mp hk
  obtain ⟨n, ds, e, hds, _⟩ := cleanElems_ok (rooted := false) (cs := split '/' key) (fun _ h => split_no_sep h)
  have hn : n = 0 := by
    cases n with
    | zero => rfl
    | succ n => rw [e] at hd; exact absurd (by simp [List.replicate_succ]) hd
  subst hn
  simp only [List.replicate_zero, List.nil_append] at e
  refine ⟨ss ++ ds, ?_, ?_⟩
  · intro c hc
    rcases List.mem_append.mp hc with h | h
    · exact hpl c h
    · exact hds c h
  · rw [he, join_down hne hpl hk, e]
    unfold render
    rw [if_neg (by decide), if_neg (by simp [hne])]

/-- what the scripts hook leaves behind -/
theorem scripts_handed {digest : Str → Bytes → Str} {plat p q : Platform} (hp : Spec.CleanScheme plat.scheme) (hi : plat.init = .ok p)
    {env : HookEnv} {guiFirst : Bool} {order : List (Str × Str) → List (Str × Str)} (ho : ∀ l, (order l).Perm l) {t : Int} {zip : List ZFile}
    {m m' : Map Ref} {cs : List Str} {info : Str} (hm : Handed digest plat q zip m cs info)
    (hfit : ∀ cfg, Spec.EntryPoints env.decode m (render false (cs ++ [info])) cfg → Spec.Fits p (render false (cs ++ [info])) cfg)
    (h : scriptsHook env guiFirst order plat t m (render false (cs ++ [info])) = .ok m') (hwf : m'.WF) : Handed digest plat q zip m' cs info := by
  rcases C52_scripts env guiFirst order ho plat p hi t m m' _ h with ⟨_, rfl⟩ | ⟨cfg, hcfg, hall⟩
  · exact hm
  · have hf := hfit cfg hcfg
    refine ⟨hm.plain, hm.root, hm.named, ⟨⟨hwf, ?_⟩, ?_⟩, ?_, ?_⟩
    · intro k r hr
      rcases hall k with ⟨key, val, i, hd, hk, mod, attr, _, hget⟩ | ⟨_, hget⟩
      · rw [hr] at hget
        cases hget
        obtain ⟨ts, hts, e⟩ := place_elems hp hi (hf.down _ _ _ hd)
        rw [← hk, e]
        exact ⟨rel_of_render hts, rfl⟩
      · rw [hget] at hr
        exact hm.tame.good.file k r hr
    · intro k hk
      obtain ⟨r, hr⟩ := get_some hk
      rcases hall k with ⟨key, val, i, hd, hk, _⟩ | ⟨_, hget⟩
      · obtain ⟨ts, hts, e⟩ := place_elems hp hi (hf.down _ _ _ hd)
        rw [← hk, e]
        exact down_of_render hts
      · rw [hget] at hr
        exact hm.tame.down k (some_key hr)
    · intro hk
      obtain ⟨r, hr⟩ := get_some hk
      rcases hall (render false (cs ++ [info]) ++ "/RECORD".toList) with ⟨key, val, i, hd, hk, _⟩ | ⟨_, hget⟩
      · exact hf.record _ _ _ hd hk
      · rw [hget] at hr
        exact hm.noRecord (some_key hr)
    · intro n r hr
      rcases hall n with ⟨key, val, i, hd, hk, mod, attr, _, hget⟩ | ⟨_, hget⟩
      · rw [hr] at hget
        cases hget
        exact memFile_ok ..
      · rw [hget] at hr
        exact hm.refs n r hr

theorem addScripts_wf {t : Int} {scripts shebang : Str} {l : List (Str × Str)} {m m' : Map Ref} (h : addScripts t scripts shebang l m = .ok m')
    (hm : m.WF) : m'.WF := by
  induction l generalizing m with
  | nil => cases h; exact hm
  | cons e l ih =>
    unfold addScripts at h
    split at h
    · cases h
    · exact ih h (Map.WF.set hm _ _)

theorem addSection_wf {t : Int} {scripts : Str} {order : List (Str × Str) → List (Str × Str)} {cfg : Config} {sect shebang : Str} {m m' : Map Ref}
    (h : addSection t scripts order cfg sect shebang m = .ok m') (hm : m.WF) : m'.WF := by
  unfold addSection at h
  split at h
  · cases h; exact hm
  · exact addScripts_wf h hm

theorem scripts_wf {env : HookEnv} {guiFirst : Bool} {order : List (Str × Str) → List (Str × Str)} {plat : Platform} {t : Int} {m m' : Map Ref} {dir : Str}
    (h : scriptsHook env guiFirst order plat t m dir = .ok m') (hm : m.WF) : m'.WF := by
  unfold scriptsHook at h
  split at h
  · cases h
  split at h
  · cases h; exact hm
  split at h
  · cases h
  split at h
  · cases h
  simp only at h
  split at h
  · obtain ⟨a, h1, h2⟩ := bind_ok h
    exact addSection_wf h2 (addSection_wf h1 hm)
  · obtain ⟨a, h1, h2⟩ := bind_ok h
    exact addSection_wf h2 (addSection_wf h1 hm)

end Bdist
