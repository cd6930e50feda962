import Verif.Bdist.PropsFilename
import Verif.Pep440.PropsExact
/-! C31, exactly: which generated file names can be read back. -/
namespace Bdist
open Go Pep440 Spec

/-- the local label up to its first dash: nothing behind the separator, or something that ends in a dot -/
theorem writeLoc_first_dash {l : List Seg} (hs : ∀ w, Seg.str w ∈ l → '-' ∉ w) (hn : ∃ n, Seg.int n ∈ l ∧ n < 0) (sep : Char) :
    ∃ a b, writeLoc sep l = sep :: (a ++ '-' :: b) ∧ '-' ∉ a ∧ (a = [] ∨ ∃ c, a = c ++ ['.']) := by
  induction l generalizing sep with
  | nil => obtain ⟨n, h, _⟩ := hn; cases h
  | cons x l ih =>
    by_cases hx : ∃ n, x = Seg.int n ∧ n < 0
    · obtain ⟨n, rfl, hneg⟩ := hx
      refine ⟨[], itoaNat n.natAbs ++ writeLoc '.' l, ?_, by simp, Or.inl rfl⟩
      rw [writeLoc, Seg.string, itoa, if_pos hneg]; rfl
    · have hrest : ∃ n, Seg.int n ∈ l ∧ n < 0 := by
        obtain ⟨n, h, hneg⟩ := hn
        rcases List.mem_cons.mp h with e | h
        · exact absurd ⟨n, e.symm, hneg⟩ hx
        · exact ⟨n, h, hneg⟩
      obtain ⟨a, b, e, ha, hend⟩ := ih (fun w hw => hs w (List.mem_cons_of_mem _ hw)) hrest '.'
      have hxs : '-' ∉ x.string := by
        cases x with
        | int n =>
          have hnn : 0 ≤ n := by
            rcases Int.lt_or_le n 0 with h | h
            · exact absurd ⟨n, rfl, h⟩ hx
            · exact h
          intro hm
          exact absurd ((digits_itoa hnn).2 _ hm) (by decide)
        | str w => exact hs w (by simp)
      refine ⟨x.string ++ '.' :: a, b, ?_, ?_, Or.inr ?_⟩
      · rw [writeLoc, e]; simp
      · simp [hxs, ha]
      · rcases hend with rfl | ⟨c, rfl⟩
        · exact ⟨x.string, rfl⟩
        · exact ⟨x.string ++ '.' :: c, by simp⟩

theorem first_dash {a b c d : Str} (ha : '-' ∉ a) (hb : '-' ∉ b) (e : a ++ '-' :: c = b ++ '-' :: d) : a = b ∧ c = d := by
  induction a generalizing b with
  | nil =>
    cases b with
    | nil => simpa using e
    | cons x b => simp at e; exact absurd (List.mem_cons.mpr (Or.inl e.1)) hb
  | cons x a ih =>
    cases b with
    | nil => simp at e; exact absurd (List.mem_cons.mpr (Or.inl e.1.symm)) ha
    | cons y b =>
      simp only [List.cons_append, List.cons.injEq] at e
      obtain ⟨h1, h2⟩ := ih (fun h => ha (by simp [h])) (fun h => hb (by simp [h])) e.2
      exact ⟨by rw [e.1, h1], h2⟩

/-- **C31**, exactly: a generated file name is read back as what it was made from (the distribution and the version normalised) if and
only if the normalised version has no negative number in its local label; otherwise it is not a wheel name at all. -/
theorem C31_exact {d : FileNameData} {name : Str} (h : generateFilename d = some (.ok name))
    (hdist : d.distribution ≠ []) (htag : d.tag.python ≠ [] ∧ d.tag.abi ≠ [] ∧ d.tag.platform ≠ [])
    (hbuild : ∀ b, d.build = some b → b.int < 2 ^ 63 ∧ ∀ c u, b.str = c :: u → c ∉ "0123456789".toList) :
    ∃ dist n, Replaced IsSep '_' d.distribution dist ∧ d.version.normalize = some (.ok n) ∧
      (parseFilename name = .ok { distribution := dist, version := n, build := d.build, tag := d.tag } ↔ ∀ k, Seg.int k ∈ n.loc → 0 ≤ k) ∧
      (parseFilename name = .error () ↔ ∃ k, Seg.int k ∈ n.loc ∧ k < 0) := by
  obtain ⟨dist, n, h1, h2, h3⟩ := C31_round_trip_partial h hdist htag hbuild
  refine ⟨dist, n, h1, h2, ?_⟩
  have hbad : (∃ k, Seg.int k ∈ n.loc ∧ k < 0) → parseFilename name = .error () := by
    intro hneg
    cases hp : parseFilename name with
    | error e => rfl
    | ok r =>
      exfalso
      obtain ⟨vs, c1, c2, c3, c4, c5, hv, hname⟩ := (C83_parse_exact name r).mp hp
      have hpar : ∃ s, parseVersion s = .ok n := by
        unfold Ver.normalize at h2
        split at h2
        · cases h2
        · injection h2 with h2; exact ⟨_, h2⟩
      obtain ⟨s, hs⟩ := hpar
      have p := parsed_shape hs
      have hlow : ∀ w, Seg.str w ∈ n.loc → '-' ∉ w := by
        intro w hw hm
        exact absurd ((p.locStr w hw).2.1 _ hm) (by decide)
      obtain ⟨a, b, e, ha, hend⟩ := writeLoc_first_dash hlow hneg '+'
      -- the text of the public part
      have hpub : ∃ t, n.toPubVer.writeTo = some t ∧ '-' ∉ t := by
        let v' : Ver := { n with loc := [] }
        have p' : Parsed v' := ⟨p.epoch, p.release, p.releaseNN, p.pre, p.post, p.dev, (fun _ h => by cases h), (fun _ h => by cases h)⟩
        have hr := (p'.readable (fun _ h => by cases h)).printable
        obtain ⟨k, ks, hrel⟩ := List.exists_cons_of_ne_nil hr.release
        cases hw : v'.toPubVer.writeTo with
        | none => simp [PubVer.writeTo, show v'.release = k :: ks from hrel] at hw
        | some t =>
          refine ⟨t, rfl, ?_⟩
          have := (printed_field hr (s := t ++ writeLoc '+' []) (by unfold Ver.string; rw [hw])).2
          rw [writeLoc, List.append_nil] at this
          exact this
      obtain ⟨t, ht, htd⟩ := hpub
      have hstr : n.string = some (t ++ '+' :: (a ++ '-' :: b)) := by
        unfold Ver.string; rw [ht]; show some (t ++ writeLoc '+' n.loc) = _; rw [e]
      -- the name up to its second dash
      have hg : ∃ rest, name = collapse isNameSep '_' false d.distribution ++ '-' :: ((t ++ '+' :: a) ++ '-' :: rest) := by
        unfold generateFilename at h
        simp only [h2, hstr] at h
        cases hb : d.build with
        | none =>
          simp only [hb, Bool.false_eq_true, if_false] at h
          split at h
          · cases h
          · injection h with h; injection h with h
            exact ⟨_, by rw [← h]; simp only [List.append_assoc, List.cons_append]; rfl⟩
        | some x =>
          simp only [hb] at h
          split at h
          · cases h
          · split at h
            · cases h
            · injection h with h; injection h with h
              exact ⟨_, by rw [← h]; simp only [List.append_assoc, List.cons_append]; rfl⟩
      obtain ⟨rest, hg⟩ := hg
      have hdd : '-' ∉ collapse isNameSep '_' false d.distribution := by
        intro hm
        rcases (replaced_mem (collapse_spec isNameSep '_' d.distribution).1).1 _ hm with e | e <;> exact absurd e (by decide)
      have hnm : ∃ rest', name = r.distribution ++ '-' :: (vs ++ '-' :: rest') := by
        rcases hname with ⟨_, e⟩ | ⟨ds, rs, _, _, e⟩
        · exact ⟨_, by rw [e]; simp [wheelName, join]; rfl⟩
        · exact ⟨_, by rw [e]; simp [wheelName, join]; rfl⟩
      obtain ⟨rest', hnm⟩ := hnm
      rw [hg] at hnm
      have k1 := (first_dash hdd c1.2 hnm).2
      have hP : '-' ∉ t ++ '+' :: a := by simp [htd, ha]
      have k2 := (first_dash hP c2.2 k1).1
      rw [← k2] at hv
      unfold parseVersion at hv
      split at hv
      · cases hv
      · rename_i m hm
        obtain ⟨l1, l2⟩ := lang_local_end (match_lang hm)
        rcases hend with rfl | ⟨c, rfl⟩
        · exact l1 rfl
        · exact l2 c rfl
  constructor
  · constructor
    · intro hok k hk
      rcases Int.lt_or_le k 0 with hneg | hnn
      · rw [hbad ⟨k, hk, hneg⟩] at hok; cases hok
      · exact hnn
    · exact h3
  · constructor
    · intro herr
      by_cases hall : ∀ k, Seg.int k ∈ n.loc → 0 ≤ k
      · rw [h3 hall] at herr; cases herr
      · obtain ⟨k, hk⟩ := Classical.not_forall.mp hall
        obtain ⟨hk, hneg⟩ := Classical.not_imp.mp hk
        exact ⟨k, hk, by omega⟩
    · exact hbad

/-- two numbers past the 32 bits and a build tag: the name has seven dashes -/
example : ∃ name, generateFilename
      { distribution := "foo".toList
        version := { epoch := 0, release := [1], pre := none, post := none, dev := none, loc := [.str "a".toList, .str "2147483648".toList, .str "2147483649".toList] }
        build := some ⟨3, []⟩, tag := ⟨"py3".toList, "none".toList, "any".toList⟩ } = some (.ok name) ∧
    name = "foo-1+a.-2147483648.-2147483647-3-py3-none-any.whl".toList ∧ parseFilename name = .error () :=
  ⟨"foo-1+a.-2147483648.-2147483647-3-py3-none-any.whl".toList, by decide +kernel⟩

end Bdist
