import Verif.Bdist.PropsInstalled
/-!
C42: only content that was checked against RECORD is installed.
-/
namespace Bdist
open Go Fsutil Python

namespace Spec

/-- the content of `f` was checked: the wheel's RECORD has a row for its name with a strong checksum and the size, and
both are right for `f` -/
def Verified (digest : Str → Bytes → Str) (csv : Bytes → Option (List (List Str))) (zip : List ZFile) (f : ZFile) : Prop :=
  ∃ d record text rows name size algo content, TheInfoDir zip d ∧ FirstNamed zip (d ++ "/RECORD".toList) record ∧
    record.content = some text ∧ csv text = some rows ∧
    [name, algo ++ "=".toList ++ digest algo content, size] ∈ rows ∧ clean name = clean f.hdr.name ∧ f.content = some content ∧
    (algo = "sha256".toList ∨ algo = "sha384".toList ∨ algo = "sha512".toList) ∧ size = itoa content.length

/-- `new` is `old`, or `old` with the interpreter named in the first line replaced -/
def Shebanged (plat : Platform) (old new : Bytes) : Prop :=
  new = old ∨ ∃ rest, (old = enc "#!pythonw".toList ++ rest ∧ new = enc "#!".toList ++ enc plat.graphicalShebang ++ rest) ∨
    (old = enc "#!python".toList ++ rest ∧ new = enc "#!".toList ++ enc plat.consoleShebang ++ rest)

end Spec

theorem join_three {a b c : Str} (ha : a ≠ []) (hb : b ≠ []) (hc : c ≠ []) : pathJoin [a, b, c] = pathJoin [a, b ++ '/' :: c] := by
  unfold pathJoin
  simp [List.filter, ha, hb, hc, join]

/-- the elements of a name that is `dir/r` when cleaned -/
theorem two_elems {dir r name : Str} (hd : Plain dir) (hr : Plain r) (h : clean name = dir ++ '/' :: r) :
    cleanElems false (split '/' name) = [dir, r] := by
  have hc : CleanElems false [dir, r] := ⟨0, [dir, r], by simp, by simp [hd, hr], by simp⟩
  have he : render false [dir, r] = dir ++ '/' :: r := by simp [render, join]
  have hs : CleanElems (isRooted name) (cleanElems (isRooted name) (split '/' name)) := cleanElems_ok (fun _ hc => split_no_sep hc)
  have : render (isRooted name) (cleanElems (isRooted name) (split '/' name)) = render false [dir, r] := by rw [he, ← h]; rfl
  obtain ⟨h1, h2⟩ := render_inj hs hc this
  rw [h1] at h2
  exact h2

theorem two_at {cs : List Str} (hne : cs ≠ []) (hp : ∀ c ∈ cs, Plain c) {dir r name : Str} (hd : Plain dir) (hr : Plain r)
    (h : clean name = dir ++ '/' :: r) : pathJoin [join ['/'] cs, name] = pathJoin [join ['/'] cs, dir, r] ∧
      pathJoin [join ['/'] cs, name] = join ['/'] cs ++ '/' :: (dir ++ '/' :: r) := by
  have key : ∀ name, clean name = dir ++ '/' :: r → pathJoin [join ['/'] cs, name] = join ['/'] cs ++ '/' :: (dir ++ '/' :: r) := by
    intro name h
    have he := two_elems hd hr h
    have hdown : Spec.Down name := by
      rw [down_iff, he]
      simp only [List.mem_cons, List.not_mem_nil, or_false, not_or]
      exact ⟨fun e => hd.2.2.1 e.symm, fun e => hr.2.2.1 e.symm⟩
    rw [join_down hne hp hdown, he, join_append hne (by simp)]
    simp [join]
  refine ⟨?_, key name h⟩
  rw [join_three (join_ne_nil hne (fun c h => (hp c h).1)) hd.1 hr.1, key name h, key (dir ++ '/' :: r)]
  have hc : CleanElems false [dir, r] := ⟨0, [dir, r], by simp, by simp [hd, hr], by simp⟩
  have he : render false [dir, r] = dir ++ '/' :: r := by simp [render, join]
  rw [← he, clean_render hc]

/-- the files of the `.dist-info` directory are not in the data directory -/
theorem info_not_data {cs : List Str} (hne : cs ≠ []) (hp : ∀ c ∈ cs, Plain c) {dir r : Str} (hd : Plain dir) (hi : Spec.InfoName dir) :
    ¬ Spec.In (dataDir (join ['/'] cs) dir) (join ['/'] cs ++ '/' :: (dir ++ '/' :: r)) := by
  rw [dataDir_elems hne hp hd.2.2.2, join_append hne (by simp)]
  rintro ⟨x, hx⟩
  simp only [join, List.append_assoc, List.cons_append] at hx
  have hx := List.append_cancel_left hx
  simp only [List.cons.injEq, true_and] at hx
  have ht : ∀ a b : Str, '/' ∉ a → (a ++ '/' :: b).takeWhile (· ≠ '/') = a := by
    intro a b ha
    induction a with
    | nil => simp
    | cons c a ih =>
      simp only [List.mem_cons, not_or] at ha
      rw [List.cons_append, List.takeWhile_cons_of_pos (by simpa using Ne.symm ha.1), ih ha.2]
  have e := congrArg (List.takeWhile (· ≠ '/')) hx
  rw [ht _ _ hd.2.2.2, ht _ _ (dataName_plain hd.2.2.2).2.2.2] at e
  obtain ⟨b, rfl⟩ := hi
  have e2 := congrArg List.getLast? e
  unfold dataName at e2
  rw [List.getLast?_append, List.getLast?_append] at e2
  have a1 : ".dist-info".toList.getLast? = some 'o' := by decide
  have a2 : ".data".toList.getLast? = some 'a' := by decide
  rw [a1, a2] at e2
  simp at e2

/-- where every file of the map comes from -/
def FromArchive (mt : Option Int) (dst : Str) (isRec : Str → Prop) (zip : List ZFile) (m : Map Ref) : Prop :=
  ∀ k r, m.get? k = some r → ∃ f ∈ zip, r = Spec.copy mt k f ∧ (isRec (clean f.hdr.name) → k = pathJoin [dst, f.hdr.name])

theorem spread_from {s : Scheme} (hs : RelScheme s) {d dst : Str} {mt : Option Int} {isRec : Str → Prop} {zip : List ZFile}
    (hno : ∀ f ∈ zip, isRec (clean f.hdr.name) → ¬ Spec.In d (pathJoin [dst, f.hdr.name])) {m : Map Ref} (hm : ZGood m)
    (hf : FromArchive mt dst isRec zip m) {m' : Map Ref} {types : Map Str}
    (h : RangeRun (spreadBody s d) (RangeState.start m) [] (.ok (m', types))) : FromArchive mt dst isRec zip m' := by
  refine (RangeRun.inv (fun m (_ : Map Str) => ZGood m ∧ FromArchive mt dst isRec zip m) ?_ h (RangeState.Pending.start _)
      ⟨hm, hf⟩ m' types rfl).2
  intro k m x ops x' hk ⟨hm, hf⟩ hb
  by_cases hi : Spec.In d k
  · by_cases hmv : ∃ n kind, Spec.Moves s d k n kind
    · obtain ⟨n, kd, hmv⟩ := hmv
      obtain ⟨r, hr⟩ := get_some hk
      rw [spreadBody_moves hmv hr] at hb
      simp only [Except.ok.injEq, Prod.mk.injEq] at hb
      obtain ⟨rfl, rfl⟩ := hb
      obtain ⟨f1, f2, f3⟩ := hm.file k r hr
      refine ⟨(hm.del k).set (schemeDir_rel hs hmv) (placed_rename f1 f2) (renameRef_plainly f3), ?_⟩
      intro j q hj
      have hj' : ((m.del k).set n (renameRef n r)).get? j = some q := hj
      rw [Map.get?_set, Map.get?_del] at hj'
      split at hj'
      · rename_i e
        subst e
        cases hj'
        obtain ⟨f, hfz, rfl, hrec⟩ := hf k r hr
        refine ⟨f, hfz, rename_copy mt f1 j f, ?_⟩
        intro hrc
        have := hrec hrc
        subst this
        exact absurd hi (hno f hfz hrc)
      · split at hj'
        · cases hj'
        · exact hf j q hj'
    · rw [spreadBody_fails hi hmv] at hb; cases hb
  · rw [spreadBody_skip hi] at hb
    cases hb
    exact ⟨hm, hf⟩

theorem same_of_nodup : ∀ {l : List ZFile}, (l.map (fun f => clean f.hdr.name)).Nodup → ∀ {f g : ZFile}, f ∈ l → g ∈ l →
    clean g.hdr.name = clean f.hdr.name → g = f
  | [], _, _, _, hf, _, _ => nomatch hf
  | x :: l, hnd, f, g, hf, hg, h => by
    rw [List.map_cons, List.nodup_cons] at hnd
    have hx : ∀ y ∈ l, clean y.hdr.name ≠ clean x.hdr.name := fun y hy e =>
      hnd.1 (e ▸ List.mem_map_of_mem (f := fun f : ZFile => clean f.hdr.name) hy)
    rcases List.mem_cons.mp hf with e | hf2
    · rcases List.mem_cons.mp hg with e' | hg2
      · rw [e, e']
      · exact absurd (e ▸ h) (hx g hg2)
    · rcases List.mem_cons.mp hg with e' | hg2
      · exact absurd (e' ▸ h).symm (hx f hf2)
      · exact same_of_nodup hnd.2 hf2 hg2 h

theorem firstNamed_unique {zip : List ZFile} (hnd : (zip.map (fun f => clean f.hdr.name)).Nodup) {f g : ZFile} (hf : f ∈ zip)
    (hg : Spec.FirstNamed zip (clean f.hdr.name) g) : g = f := by
  obtain ⟨a, b, rfl, h1, _⟩ := hg
  exact same_of_nodup hnd hf (by simp) h1

/-- what the integrity check says about one file -/
theorem verified_of_check {digest : Str → Bytes → Str} {csv : Bytes → Option (List (List Str))} {zip : List ZFile}
    (h : integrityCheck digest csv zip = .ok ()) (hnd : (zip.map (fun f => clean f.hdr.name)).Nodup) {f : ZFile} (hf : f ∈ zip)
    (hdir : f.hdr.isDir = false) {d : Str} (hd : Spec.TheInfoDir zip d) (h1 : clean f.hdr.name ≠ d ++ "/RECORD".toList)
    (h2 : clean f.hdr.name ≠ d ++ "/RECORD.jws".toList) (h3 : clean f.hdr.name ≠ d ++ "/RECORD.p7s".toList) :
    Spec.Verified digest csv zip f := by
  obtain ⟨d', record, text, rows, hd', hrec, htext, hrows, htrue, hall⟩ := (C41_exact digest csv zip).mp h
  have : d' = d := by
    obtain ⟨i, ⟨g, hg, hgt⟩, _⟩ := hd'
    rw [← hgt] at i ⊢
    exact hd.2.2 g hg i
  subst this
  obtain ⟨row, hrow, name, hash, size, rfl, hname⟩ := hall f hf hdir h2 h3
  obtain ⟨name', hash', size', g, c, e, hg, hc, hhash, hsize, hboth⟩ := htrue _ hrow
  cases e
  rw [hname] at hg hboth
  have := firstNamed_unique hnd hf hg
  subst this
  rcases hboth with ⟨n1, n2⟩ | hb
  · obtain ⟨algo, ha, rfl⟩ := hhash.resolve_left n1
    exact ⟨d', record, text, rows, name, size, algo, c, hd', hrec, htext, hrows, hrow, hname, hc, ha, hsize.resolve_left n2⟩
  · exact absurd hb h1

/-- **C42** for archives in which no name (cleaned) occurs twice and only names ending in "/" are marked as directories
(`C42_violated` shows that both are needed): every file that `installToVFS` puts into the map, whatever the order of its
loops, is made by the compiler, or is a directory, or has the content of an archive file that was checked against RECORD, up
to the rewriting of the first line of scripts. -/
theorem C42_verified_partial (env : Env) (plat p : Platform) (hp : Spec.CleanScheme plat.scheme) (hs : sanitizePlatform plat = .ok p)
    (minTime : Option Int) (maxTime : Int) (zip : List ZFile) (hnd : (zip.map (fun f => clean f.hdr.name)).Nodup)
    (hdirs : ∀ f ∈ zip, f.hdr.isDir = true → ∃ b, f.hdr.name = b ++ ['/']) (hint : integrityCheck env.digest env.csv zip = .ok ())
    (m : Map Ref) (d : Str) (h : VfsRun env p minTime maxTime zip (.ok (m, d))) (n : Str) (r : Ref) (hr : m.get? n = some r) :
    (∃ srcs outs, env.compile maxTime [p.scheme.pureLib, p.scheme.platLib] srcs = .ok outs ∧ r ∈ outs) ∨ r.isDir = true ∨
    ∃ f ∈ zip, Spec.Verified env.digest env.csv zip f ∧
      ∃ old new, f.content = some old ∧ r.content = some new ∧ Spec.Shebanged p old new := by
  cases h with
  | @done dir get vfs h1 h2 h3 =>
  obtain ⟨kind, hroot⟩ := rootDir_mem p get
  obtain ⟨cs, hne, hpl, hdst, _⟩ := scheme_elems hp hs hroot
  have hrel := sanitize_rel (clean_proper hp) hs
  have hplain := info_plain h1
  have hinfo : Spec.TheInfoDir zip dir := by
    unfold parseWheel at h1
    cases hd : distInfoDir zip with
    | error e => rw [hd] at h1; cases h1
    | ok d =>
      rw [hd] at h1
      simp only at h1
      split at h1
      · cases h1
      · split at h1
        · cases h1
        · cases h1; exact (C50_dist_info zip _).mp hd
  -- the three RECORD files
  let isRec : Str → Prop := fun x => x = dir ++ "/RECORD".toList ∨ x = dir ++ "/RECORD.jws".toList ∨ x = dir ++ "/RECORD.p7s".toList
  have hrecAt : ∀ name, isRec (clean name) → Spec.Removed (rootDir p get) dir (pathJoin [rootDir p get, name]) ∧
      ¬ Spec.In (dataDir (rootDir p get) dir) (pathJoin [rootDir p get, name]) := by
    intro name hname
    rw [hdst]
    have key : ∀ x, Plain x → clean name = dir ++ '/' :: x →
        pathJoin [join ['/'] cs, name] = pathJoin [join ['/'] cs, dir, x] ∧
        ¬ Spec.In (dataDir (join ['/'] cs) dir) (pathJoin [join ['/'] cs, name]) := by
      intro x hx he
      obtain ⟨e1, e2⟩ := two_at hne hpl hplain hx he
      refine ⟨e1, ?_⟩
      rw [e2]
      exact info_not_data hne hpl hplain hinfo.1
    rcases hname with hname | hname | hname
    · obtain ⟨e1, e2⟩ := key "RECORD".toList (by unfold Plain; decide +kernel) hname
      exact ⟨Or.inl e1, e2⟩
    · obtain ⟨e1, e2⟩ := key "RECORD.jws".toList (by unfold Plain; decide +kernel) hname
      exact ⟨Or.inr (Or.inl e1), e2⟩
    · obtain ⟨e1, e2⟩ := key "RECORD.p7s".toList (by unfold Plain; decide +kernel) hname
      exact ⟨Or.inr (Or.inr (Or.inl e1)), e2⟩
  have hz := unpack_good (hrel kind _ hroot).1 (hrel kind _ hroot).2 minTime zip
  obtain ⟨m1, types, m2, outs, hrun, _, _, ⟨order, _, hno, hrw⟩, ⟨srcs, _, hcomp⟩, rfl⟩ := spreadRun_inv hrel hz h3
  have hf0 : FromArchive minTime (rootDir p get) isRec zip (unpack minTime (rootDir p get) zip) := by
    intro k r hr
    obtain ⟨f, hf, rfl⟩ := (unpack_get _ _ _ _ _).mp hr
    exact ⟨f, (lastAt_mem hf).1, rfl, fun _ => (lastAt_mem hf).2.symm⟩
  have hf1 := spread_from hrel (fun f _ hrec => (hrecAt _ hrec).2) hz hf0 hrun
  -- the compiled files
  have hout : (r ∈ outs) ∨ (removeRecords (rootDir p get) dir m2).get? n = some r := by
    clear hcomp h3
    generalize removeRecords (rootDir p get) dir m2 = m3 at hr ⊢
    induction outs generalizing m3 with
    | nil => exact Or.inr hr
    | cons o outs ih =>
      rcases ih _ hr with h | h
      · exact Or.inl (List.mem_cons_of_mem _ h)
      · rw [Map.get?_set] at h
        split at h
        · cases h; exact Or.inl (List.mem_cons_self ..)
        · exact Or.inr h
  rcases hout with hout | hget
  · exact Or.inl ⟨_, _, hcomp, hout⟩
  right
  obtain ⟨q1, q2⟩ := remove_get (rootDir p get) dir m2 n
  have hrem : ¬ Spec.Removed (rootDir p get) dir n := by
    intro hx
    rw [q1 hx] at hget; cases hget
  rw [q2 hrem] at hget
  -- the file it comes from
  have hsrc : ∃ f ∈ zip, ∃ r0, r0 = Spec.copy minTime n f ∧ ¬ isRec (clean f.hdr.name) ∧ (r = r0 ∨ Spec.Rewritten env.digest p r0 r) := by
    obtain ⟨a1, a2⟩ := C47_rewrite env.digest p order hno m1 m2 hrw n
    by_cases hsc : (n, "scripts".toList) ∈ order
    · obtain ⟨r0, r', b1, b2, b3⟩ := a1 hsc
      rw [hget] at b2
      cases b2
      obtain ⟨f, hf, e, hrec⟩ := hf1 n r0 b1
      exact ⟨f, hf, r0, e, fun hx => hrem (by rw [hrec hx]; exact (hrecAt _ hx).1), Or.inr b3⟩
    · rw [a2 hsc] at hget
      obtain ⟨f, hf, e, hrec⟩ := hf1 n r hget
      exact ⟨f, hf, r, e, fun hx => hrem (by rw [hrec hx]; exact (hrecAt _ hx).1), Or.inl rfl⟩
  obtain ⟨f, hf, r0, rfl, hnrec, hcase⟩ := hsrc
  by_cases hsl : ∃ b, f.hdr.name = b ++ ['/']
  · left
    have hsuf : hasSuffix f.hdr.name ['/'] = true := (hasSuffix_iff _ _).mpr hsl
    have hname : (createHdr minTime n f.hdr).name = n ++ ['/'] := by unfold createHdr; simp only [hsuf, if_true]
    rcases hcase with rfl | ⟨old, _, hcase⟩
    · exact (C41_directories _).mpr (Or.inl ⟨n, hname⟩)
    · have hnew : ∀ new, Spec.NewContent env.digest old new (Spec.copy minTime n f) r → r.isDir = true := by
        rintro new ⟨h, h', e1, rfl, e3, _⟩
        unfold Spec.copy at e1
        simp only [Ref.zip.injEq] at e1
        obtain ⟨e1, _⟩ := e1
        refine (C41_directories _).mpr (Or.inl ⟨n, ?_⟩)
        rw [e3, ← e1, hname]
      rcases hcase with ⟨_, _, hx⟩ | ⟨_, _, _, hx⟩ | ⟨_, rfl⟩
      · exact hnew _ hx
      · exact hnew _ hx
      · exact (C41_directories _).mpr (Or.inl ⟨n, hname⟩)
  · right
    have hfd : f.hdr.isDir = false := by
      cases hx : f.hdr.isDir with
      | false => rfl
      | true => exact absurd (hdirs f hf hx) hsl
    have hv : Spec.Verified env.digest env.csv zip f :=
      verified_of_check hint hnd hf hfd hinfo (fun e => hnrec (Or.inl e)) (fun e => hnrec (Or.inr (Or.inl e))) (fun e => hnrec (Or.inr (Or.inr e)))
    refine ⟨f, hf, hv, ?_⟩
    obtain ⟨_, _, _, _, _, _, _, c, _, _, _, _, _, _, hc, _⟩ := hv
    rcases hcase with rfl | ⟨old, ho, hcase⟩
    · exact ⟨c, c, hc, hc, Or.inl rfl⟩
    · have ho' : f.content = some old := ho
      have hnew : ∀ new, Spec.NewContent env.digest old new (Spec.copy minTime n f) r → r.content = some new := by
        rintro new ⟨h, h', _, rfl, _⟩
        rfl
      rcases hcase with ⟨rest, e, hx⟩ | ⟨rest, e, _, hx⟩ | ⟨_, rfl⟩
      · exact ⟨old, _, ho', hnew _ hx, Or.inr ⟨rest, Or.inl ⟨e, rfl⟩⟩⟩
      · exact ⟨old, _, ho', hnew _ hx, Or.inr ⟨rest, Or.inr ⟨e, rfl⟩⟩⟩
      · exact ⟨old, old, ho', ho, Or.inl rfl⟩

/-- the hypotheses of `C42_verified_partial` about the archive are met by the sample archive (for the others see the example for
`C43_inside_partial`) -/
example : (toyZip.map (fun f => clean f.hdr.name)).Nodup ∧ (∀ f ∈ toyZip, f.hdr.isDir = true → ∃ b, f.hdr.name = b ++ ['/']) ∧
    integrityCheck (toyEnv toyZip).digest (toyEnv toyZip).csv toyZip = .ok () := by
  refine ⟨by decide +kernel, ?_, by decide +kernel⟩
  intro f hf h
  have : ∀ f ∈ toyZip, f.hdr.isDir = false := by decide +kernel
  rw [this f hf] at h; cases h

/-- the sample archive with another file of a name that it has already: RECORD is right about the first one -/
def doubleZip : List ZFile := toyZip ++ [sampleFile "m/a.py" [6, 6]]

/-- the sample archive with a file that is marked as a directory and that RECORD does not mention -/
def markedZip : List ZFile := ⟨⟨"m/b.py".toList, 0x300#16, 0o040755#16 ++ 0#16, 5, 2⟩, some [8, 8]⟩ :: toyZip

/-- **C42** fails: of two files with the same name the first one is checked and the last one is installed. -/
theorem C42_violated : ∃ layer, InstallRun (toyWorld toyZip) toyPlat none none noHook doubleZip (.ok layer) ∧
    (∃ e ∈ layer, e.1.name = "l/pure/m/a.py".toList ∧ e.1.typeflag = typeReg ∧ e.2 = [6, 6]) ∧
    (∃ text, openWheel doubleZip "x.dist-info/RECORD".toList = some text ∧ ∃ rows, (toyWorld toyZip).csv text = some rows ∧
      ∀ row ∈ rows, ∀ hash size, row = ["m/a.py".toList, hash, size] → hash ≠ "sha256=".toList ++ (toyWorld toyZip).digest "sha256".toList [6, 6]) := by
  obtain ⟨layer, h1, h2⟩ := outline_ok (w := toyWorld toyZip) (plat := toyPlat) (minTime := none) (maxTime := none) (hook := noHook)
    (zip := doubleZip) chooses_head
    (l := toyOutline.take 8 ++ ("l/pure/m/a.py".toList, '0', 0o644, [6, 6]) :: toyOutline.drop 9) (by decide +kernel)
  refine ⟨layer, h1, ?_, ⟨_, rfl, _, rfl, ?_⟩⟩
  · have hm : ("l/pure/m/a.py".toList, '0', (0o644 : Int), ([6, 6] : Bytes)) ∈ layer.map (fun e => (e.1.name, e.1.typeflag, e.1.mode, e.2)) := by
      rw [h2]; simp
    obtain ⟨e, he, hen⟩ := List.mem_map.mp hm
    simp only [Prod.mk.injEq] at hen
    exact ⟨e, he, hen.1, hen.2.1, hen.2.2.2⟩
  · intro row hrow hash size e
    have hall : ∀ row ∈ toyRecord toyZip, row.headD [] = "m/a.py".toList →
        (row.drop 1).headD [] ≠ "sha256=".toList ++ toyDigest "sha256".toList [6, 6] := by decide +kernel
    have := hall row hrow (by rw [e]; rfl)
    rw [e] at this
    exact this

/-- **C42** fails in another way: a file that the archive marks as a directory need not be in RECORD, but if its name does
not end in "/" it is installed as a file. -/
theorem C42_violated_directory : ∃ layer, InstallRun (toyWorld toyZip) toyPlat none none noHook markedZip (.ok layer) ∧
    (∃ e ∈ layer, e.1.name = "l/pure/m/b.py".toList ∧ e.1.typeflag = typeReg ∧ e.2 = [8, 8]) ∧
    (markedZip.map (fun f => clean f.hdr.name)).Nodup ∧
    (∃ text, openWheel markedZip "x.dist-info/RECORD".toList = some text ∧ ∃ rows, (toyWorld toyZip).csv text = some rows ∧
      ¬ ∃ row ∈ rows, Spec.Names row "m/b.py".toList) := by
  obtain ⟨layer, h1, h2⟩ := outline_ok (w := toyWorld toyZip) (plat := toyPlat) (minTime := none) (maxTime := none) (hook := noHook)
    (zip := markedZip) chooses_head
    (l := toyOutline.take 9 ++ ("l/pure/m/b.py".toList, '0', 0o644, [8, 8]) :: toyOutline.drop 9) (by decide +kernel)
  refine ⟨layer, h1, ?_, by decide +kernel, ⟨_, rfl, _, rfl, ?_⟩⟩
  · have hm : ("l/pure/m/b.py".toList, '0', (0o644 : Int), ([8, 8] : Bytes)) ∈ layer.map (fun e => (e.1.name, e.1.typeflag, e.1.mode, e.2)) := by
      rw [h2]; simp
    obtain ⟨e, he, hen⟩ := List.mem_map.mp hm
    simp only [Prod.mk.injEq] at hen
    exact ⟨e, he, hen.1, hen.2.1, hen.2.2.2⟩
  · rintro ⟨row, hrow, name, hash, size, rfl, hn⟩
    have hall : ∀ row ∈ toyRecord toyZip, clean (row.headD []) ≠ "m/b.py".toList := by decide +kernel
    exact hall _ hrow hn

end Bdist
