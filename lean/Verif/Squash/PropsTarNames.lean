import Verif.Squash.PropsWhole
import Verif.Squash.PropsStream
import Verif.Go.PropsTar
/-! C128: layers that could be read can be squashed; the names of the result fit into the headers that are kept. -/
namespace Squash
open Go Spec Go.Tar

/-- The `tar.Writer` of `Squash` (squash.go:62-70) as far as names are concerned.  The format of a header is among the fields that the
package copies without looking at them (`other`), so it is some function `fmt` of them. -/
def takes (fmt : Str → Format) (e : Entry) : Bool := nameFits (fmt e.header.other) e.header.name

/-- a directory's name with its slash at the end -/
def Spec.slashed (e : Entry) : Str :=
  if e.header.typeflag = '5' ∧ ¬ "/".toList <:+ e.header.name then e.header.name ++ "/".toList else e.header.name

/-- an entry whose name, with a slash for a directory, fits into its header by the rule of POSIX, and has no element that fills the field
for the name; NUL occurs in no name -/
def Spec.Roomy (fmt : Str → Format) (e : Entry) : Prop :=
  (fmt e.header.other = .ustar → Tar.Spec.Ustar (slashed e) ∧
    ∀ c ∈ split '/' e.header.name, c.length ≤ if e.header.typeflag = '5' then 99 else 100) ∧
  ∀ c ∈ e.header.name, c.toNat ≠ 0

theorem clean_snoc_slash {s : Str} (h : isRooted s = false) (hs : s ≠ []) : clean (s ++ ['/']) = clean s := by
  unfold clean
  rw [isRooted_append hs, h, split_append]
  have : split '/' [] = [[]] := rfl
  rw [this]
  unfold cleanElems
  rw [List.foldl_append]
  simp [cleanStep]

/-- cleaning adds no other characters -/
theorem clean_chars {s : Str} (hr : isRooted s = false) : ∀ c ∈ clean s, c = '.' ∨ c = '/' ∨ c ∈ s := by
  intro c hc
  unfold clean at hc
  rw [hr] at hc
  unfold render at hc
  simp only [Bool.false_eq_true, if_false] at hc
  split at hc
  · exact .inl (List.mem_singleton.mp hc)
  · rcases mem_join hc with h | ⟨x, h1, h2⟩
    · exact .inr (.inl h)
    · obtain ⟨y, z, g1, _, _, g4, g5⟩ := cleanElems_width false [] (split '/' s)
      rw [List.nil_append] at g1
      rw [g1] at h1
      rcases List.mem_append.mp h1 with h1 | h1
      · exact absurd (g4 x h1) (by simp)
      · exact .inr (.inr (mem_split (g5 x h1) c h2).1)

theorem not_rooted {s : Str} (ho : ¬ Outside s) : isRooted s = false := by
  rw [← outside_iff] at ho
  obtain ⟨cs, hcs, hroot, hcl, _⟩ := inside_elems (s := s) (by simpa using ho)
  obtain ⟨_, _, h1, _⟩ := split_clean s
  rw [← h1, hroot]

/-- the entry written at a path has a name that the writer takes -/
theorem roomy_takes {fmt : Str → Format} {e : Entry} (ho : ¬ Outside e.header.name) (hr : Roomy fmt e) {e' : Entry}
    (hp : e'.header = { e.header with name := if e.header.typeflag = typeDir then render false (pathOf e) ++ "/".toList else render false (pathOf e) }) :
    takes fmt e' = true := by
  obtain ⟨cs, hcs, hroot, hcl, _⟩ := inside_elems (inside_false ho)
  have hpath : render false (pathOf e) = clean e.header.name := by
    unfold pathOf
    rw [hcl, comps_render hcs]
  have hrooted := not_rooted ho
  rw [hpath] at hp
  unfold takes
  rw [hp]
  simp only
  have hchars := clean_chars hrooted
  by_cases hf : fmt e.header.other = .ustar
  · obtain ⟨h1, h2⟩ := hr.1 hf
    rw [hf, C128_ustar]
    by_cases ht : e.header.typeflag = '5'
    · rw [if_pos (show e.header.typeflag = typeDir from ht)]
      unfold slashed at h1
      simp only [ht, if_true, true_and] at h1 h2
      by_cases hs : "/".toList <:+ e.header.name
      · rw [if_neg (by simpa using hs)] at h1
        refine ustar_clean hrooted (.inr ⟨rfl, ?_⟩) h1 ?_
        · obtain ⟨t, ht⟩ := hs; exact ⟨t, ht.symm⟩
        · intro c hc; have := h2 c hc; simp; omega
      · rw [if_pos (by simpa using hs)] at h1
        by_cases hnil : e.header.name = []
        · rw [hnil]
          have : clean [] = ".".toList := by decide +kernel
          rw [this]
          refine ⟨?_, .inl (by decide)⟩
          intro c hc
          simp at hc
          rcases hc with rfl | rfl <;> decide
        have := ustar_clean (t := e.header.name ++ ['/']) (tail := ['/']) (by rw [isRooted_append hnil]; exact hrooted) (.inr ⟨rfl, _, rfl⟩) h1 ?_
        · rw [clean_snoc_slash hrooted hnil] at this
          exact this
        · intro c hc
          rw [split_append] at hc
          rcases List.mem_append.mp hc with hc | hc
          · have := h2 c hc; simp; omega
          · have : c = [] := by simpa [split] using hc
            rw [this]; simp
    · rw [if_neg (show ¬ e.header.typeflag = typeDir from ht)]
      unfold slashed at h1
      rw [if_neg (by simp [ht])] at h1
      have := ustar_clean (tail := []) hrooted (.inl rfl) h1 (by intro c hc; have := h2 c hc; rw [if_neg ht] at this; simpa using this)
      rwa [List.append_nil] at this
  · apply nameFits_other hf
    intro c hc
    have : c = '.' ∨ c = '/' ∨ c ∈ e.header.name := by
      split at hc
      · rcases List.mem_append.mp hc with hc | hc
        · exact hchars c hc
        · exact .inr (.inl (by simpa using hc))
      · exact hchars c hc
    rcases this with rfl | rfl | h
    · decide
    · decide
    · exact hr.2 c h

/-- the markers that the package adds get the format the writer chooses -/
theorem opq_takes {fmt : Str → Format} (h0 : fmt [] = .unknown) {e : Entry} {d : Path} (ho : e.header.other = [])
    (hn : e.header.name = render false (d ++ [opqName])) (hd : ∀ c ∈ d, ∀ x ∈ c, x.toNat ≠ 0) : takes fmt e = true := by
  unfold takes
  rw [ho, h0]
  apply nameFits_other (by decide)
  intro c hc
  rw [hn] at hc
  unfold render at hc
  simp only [Bool.false_eq_true, if_false] at hc
  rw [if_neg (by simp)] at hc
  rcases mem_join hc with rfl | ⟨x, h1, h2⟩
  · decide
  · rcases List.mem_append.mp h1 with h1 | h1
    · exact hd x h1 c h2
    · rw [List.mem_singleton.mp h1] at h2
      have : ∀ c ∈ opqName, c.toNat ≠ 0 := by decide +kernel
      exact this c h2

/-- **C128** (partial): layers that can be read, of the kind for which squashing is faithful (`Tame`), are squashed without an error of the
writer, whatever format their entries have, if in USTAR entries the names, with the slash that squashing gives to a directory, leave
room in the header.  Missing: directories and other entries whose name fills the header, and entries below symlinks; see
`C128_violated_dir` and `C128_violated_link`. -/
theorem C128_squash_partial (fmt : Str → Format) (h0 : fmt [] = .unknown) (layers : List Stream.Layer) (ess : List (List Entry))
    (hl : Stream.Spec.HoldAll layers ess) (ht : Tame ess) (hr : ∀ es ∈ ess, ∀ e ∈ es, Roomy fmt e) (n : Nat) (hn : 3 ≤ n)
    (srt : (Str → Str → Bool) → List Str → List Str) (order : Path → List Str → List Str) :
    ∃ out, Stream.squash n srt order (takes fmt) true layers = some (.ok out) ∧ squash n srt order ess = some (.ok out) := by
  obtain ⟨S, h1, h2, h3⟩ := tame_squash ht hn srt order
  refine ⟨_, (Stream.C127_squash_partial _ _ _ _ _ _ _).mpr ⟨ess, hl, h3, ?_, rfl⟩, h3⟩
  intro e he
  obtain ⟨p, hp⟩ := mem_writeTo _ _ he
  rw [List.nil_append] at hp
  obtain ⟨hd, b, g1, g2⟩ := mem_nodeEntry.mp hp
  have hpl := h2.wf.plain p (has_of g1)
  have hk := h2.wf.inv.keys p (has_of g1)
  have hf : p.filter (· ≠ []) = p := by
    rw [List.filter_eq_self]
    intro c hc
    simpa using (hpl c hc).1
  have hname : nodeName p = render false p := by
    rw [nodeName_eq (fun c hc => (hk c hc).1), hf]
  rw [hname] at g2
  rcases h2.origin p _ hd g1 rfl with ⟨e0, k1, k2, k3⟩ | ⟨d, k1, k2, k3⟩
  · obtain ⟨l, m1, m2⟩ := mem_flat.mp k1
    refine roomy_takes (ht.inside l m1 e0 m2) (hr l m1 e0 m2) ?_
    unfold nodeOf at k3
    injection k3 with k3 k4
    injection k3 with k3
    rw [g2, k3, k2]
  · injection k2 with k2 _
    injection k2 with k2
    have hty : hd.typeflag ≠ typeDir := by rw [k2]; decide
    rw [if_neg hty, k1] at g2
    obtain ⟨A, e0, B, _, C, m1, m2, _⟩ := k3
    have hm : e0 ∈ ess.flatMap inOrder := by rw [m1]; simp
    obtain ⟨l, m3, m4⟩ := mem_flat.mp hm
    refine opq_takes (d := d) h0 (by rw [g2, k2]; rfl) (by rw [g2]) ?_
    intro c hc x hx
    rw [← m2] at hc
    have hx := (mem_split (List.mem_filter.mp hc).1 x hx).1
    rcases clean_chars (not_rooted (ht.inside l m3 e0 m4)) x hx with rfl | rfl | h
    · decide
    · decide
    · exact (hr l m3 e0 m4).2 x h

/-- USTAR entries; all other headers are left to the writer -/
def exFmt (other : Str) : Format := if other = "ustar".toList then .ustar else .unknown

def exU (e : Entry) : Entry := { e with header := { e.header with other := "ustar".toList } }

/-- layers in USTAR: a directory of 99 characters, a file in it with a name that is cut, and a file that a directory replaces -/
def exRoomy : List (List Entry) :=
  [[exU ⟨⟨List.replicate 99 'd', '5', [], 0, 0o755, []⟩, []⟩,
    exU ⟨⟨"./".toList ++ List.replicate 99 'd' ++ "/".toList ++ List.replicate 100 'f', '0', [], 1, 0o644, []⟩, [1]⟩,
    exU (exFile "g" [2])],
   [exU (exDir "g/")]]

example : Tame exRoomy ∧ (∀ es ∈ exRoomy, ∀ e ∈ es, Roomy exFmt e) ∧ exFmt [] = .unknown ∧
    Stream.squash 9 insertionSort (fun _ l => l) (takes exFmt) true (exRoomy.map fun es => ⟨true, es.map fun e => ⟨e.header, .ok e.body⟩, true, true, true⟩) =
      some (.ok [exU ⟨⟨List.replicate 99 'd' ++ "/".toList, '5', [], 0, 0o755, []⟩, []⟩,
        exU ⟨⟨List.replicate 99 'd' ++ "/".toList ++ List.replicate 100 'f', '0', [], 1, 0o644, []⟩, [1]⟩,
        exU (exDir "g/"), ⟨{ opqHeader with name := "g/.wh..wh..opq".toList }, []⟩]) := by
  refine ⟨⟨?_, by decide +kernel, ?_, noRevival_of (by decide +kernel), grounded_of ?_⟩, ?_, by decide +kernel, by decide +kernel⟩
  · intro l hl e he
    rw [← outside_iff]
    have : ∀ l ∈ exRoomy, ∀ e ∈ l, outside (clean e.header.name) = false := by decide +kernel
    rw [this l hl e he]; simp
  · intro l hl e he
    have : ∀ l ∈ exRoomy, ∀ e ∈ l, regularB e = true := by decide +kernel
    exact regular_dec (this l hl e he)
  · have : ∀ i, i < (exRoomy.flatMap inOrder).length → ((exRoomy.flatMap inOrder)[i]?).all (fun e => (List.range (pathOf e).length).all
        (fun k => (((exRoomy.flatMap inOrder).take i).foldl apply emptyView ((pathOf e).take k)).any (fun nd => nd.nonDir) == false)) = true := by
      decide +kernel
    intro i hi e he k hk
    have := this i hi
    rw [he] at this
    simp only [Option.all_some, List.all_eq_true, List.mem_range, beq_iff_eq] at this
    exact this k hk
  · have : ∀ es ∈ exRoomy, ∀ e ∈ es, nameFits .ustar (if e.header.typeflag = '5' ∧ ¬ "/".toList <:+ e.header.name then e.header.name ++ "/".toList else e.header.name) = true ∧
        (∀ c ∈ split '/' e.header.name, c.length ≤ if e.header.typeflag = '5' then 99 else 100) ∧ ∀ c ∈ e.header.name, c.toNat ≠ 0 := by decide +kernel
    intro es hes e he
    obtain ⟨h1, h2, h3⟩ := this es hes e he
    exact ⟨fun _ => ⟨(C128_ustar _).mp h1, h2⟩, h3⟩

/-- the writer refuses what it is given -/
theorem refused {n : Nat} {srt : (Str → Str → Bool) → List Str → List Str} {order : Path → List Str → List Str} {accepts : Entry → Bool} {layers : List Stream.Layer}
    {ess : List (List Entry)} {out : List Entry} (hl : Stream.Spec.HoldAll layers ess) (h : squash n srt order ess = some (.ok out)) {e : Entry} (he : e ∈ out)
    (hr : accepts e = false) : Stream.squash n srt order accepts true layers = some (.error ()) := by
  have hload : Stream.load n layers false = loadLayers n ess false := Stream.loadFrom_holds n false hl emptyFS
  unfold squash at h
  unfold Stream.squash
  rw [hload]
  cases hS : loadLayers n ess false with
  | none => rw [hS] at h; cases h
  | some r => cases r with
    | error x => rw [hS] at h; cases h
    | ok S =>
      rw [hS, bind_some_ok] at h
      rw [bind_some_ok]
      injection h with h
      injection h with h
      unfold Stream.write
      rw [h, if_neg]
      simp only [Bool.and_true, List.all_eq_true]
      intro h2
      rw [h2 e he] at hr
      cases hr

/-- The code violates C128.  A directory with a name of 100 characters, in a layer as `ocibuild layer dir` itself writes it: the header of
the layer holds the name, but `Squash` adds a slash and asks for the same kind of header, which has no room for it, and fails. -/
theorem C128_violated_dir (n : Nat) (hn : 9 ≤ n) (srt : (Str → Str → Bool) → List Str → List Str) (hs : SortSlice srt)
    (order : Path → List Str → List Str) (ho : PermOrder order) :
    takes exFmt (exU ⟨⟨List.replicate 100 'd', '5', [], 0, 0o755, []⟩, []⟩) = true ∧
    ∀ layer, Stream.Spec.Holds layer [exU ⟨⟨List.replicate 100 'd', '5', [], 0, 0o755, []⟩, []⟩] →
      Stream.squash n srt order (takes exFmt) true [layer] = some (.error ()) := by
  refine ⟨by decide +kernel, fun layer hl => ?_⟩
  exact refused (ess := [[exU ⟨⟨List.replicate 100 'd', '5', [], 0, 0o755, []⟩, []⟩]]) (out := [exU ⟨⟨List.replicate 100 'd' ++ "/".toList, '5', [], 0, 0o755, []⟩, []⟩])
    ⟨hl, trivial⟩ (squash_all (by decide +kernel) n hn srt hs order ho) (List.mem_singleton.mpr rfl) (by decide +kernel)

/-- The code violates C128.  A layer with a directory whose name is not ASCII and a symlink to it, and above it a USTAR layer with a file
below the symlink: the file is put into the directory, whose name cannot be in a USTAR header, and `Squash` fails. -/
theorem C128_violated_link (n : Nat) (hn : 9 ≤ n) (srt : (Str → Str → Bool) → List Str → List Str) (hs : SortSlice srt)
    (order : Path → List Str → List Str) (ho : PermOrder order) :
    (∀ es ∈ [[exDir "bibliothèque/", exLink "lib" "bibliothèque"], [exU (exFile "lib/x" [1])]], ∀ e ∈ es, Roomy exFmt e ∧ takes exFmt e = true) ∧
    ∀ layers, Stream.Spec.HoldAll layers [[exDir "bibliothèque/", exLink "lib" "bibliothèque"], [exU (exFile "lib/x" [1])]] →
      Stream.squash n srt order (takes exFmt) true layers = some (.error ()) := by
  refine ⟨?_, fun layers hl => ?_⟩
  · have : ∀ es ∈ [[exDir "bibliothèque/", exLink "lib" "bibliothèque"], [exU (exFile "lib/x" [1])]], ∀ e ∈ es, takes exFmt e = true ∧
        (exFmt e.header.other = .ustar → nameFits .ustar (if e.header.typeflag = '5' ∧ ¬ "/".toList <:+ e.header.name then e.header.name ++ "/".toList else e.header.name) = true ∧
        (∀ c ∈ split '/' e.header.name, c.length ≤ if e.header.typeflag = '5' then 99 else 100)) ∧ ∀ c ∈ e.header.name, c.toNat ≠ 0 := by decide +kernel
    intro es hes e he
    obtain ⟨h1, h2, h3⟩ := this es hes e he
    exact ⟨⟨fun hf => ⟨(C128_ustar _).mp (h2 hf).1, (h2 hf).2⟩, h3⟩, h1⟩
  · exact refused (out := [exDir "bibliothèque/", exU (exFile "bibliothèque/x" [1]), exLink "lib" "bibliothèque"])
      hl (squash_all (by decide +kernel) n hn srt hs order ho) (e := exU (exFile "bibliothèque/x" [1])) (by simp) (by decide +kernel)

end Squash
