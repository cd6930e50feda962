import Verif.Pep440.GrammarNormal
/-! C106: `ParseVersion` accepts exactly the grammar of PEP 440 and returns what the text says. -/
namespace Pep440
open Go Spec

theorem dig_mem {c : Char} : isDig c = true ↔ c ∈ "0123456789".toList := by
  constructor
  · intro h
    rw [isDig_iff] at h
    have key : ∀ n : Fin 58, 48 ≤ n.val → Char.ofNat n.val ∈ "0123456789".toList := by decide
    have := key ⟨c.toNat, by omega⟩ h.1
    simpa [Char.ofNat_toNat] using this
  · intro h; revert c; decide

theorem number_iff {w : Str} {n : Int} : Number w n ↔ Digits w ∧ n = numOf w := by
  constructor
  · rintro ⟨h1, h2, h3⟩
    exact ⟨⟨h1, fun c hc => dig_mem.2 (h2 c hc)⟩, h3⟩
  · rintro ⟨⟨h1, h2⟩, h3⟩
    exact ⟨h1, fun c hc => dig_mem.1 (h2 c hc), h3⟩

theorem optNumber_iff {w : Str} {n : Int} : OptNumber w n ↔ (w = [] ∨ Digits w) ∧ n = numOf w := by
  constructor
  · rintro (⟨rfl, rfl⟩ | h)
    · exact ⟨Or.inl rfl, rfl⟩
    · rw [number_iff] at h; exact ⟨Or.inr h.1, h.2⟩
  · rintro ⟨rfl | h, e⟩
    · exact Or.inl ⟨rfl, e⟩
    · exact Or.inr (number_iff.2 ⟨h, e⟩)

theorem worded_iff {words : List (Str × Str)} {w l : Str} {n : Int} :
    Worded words w l n ↔ ∃ y : Wd, w = y.text ∧ Sep y.s1 ∧ (y.w, l) ∈ words ∧ Sep y.s2 ∧ (y.d = [] ∨ Digits y.d) ∧
      n = numOf y.d := by
  constructor
  · rintro ⟨s1, word, s2, d, h1, h2, h3, h4, rfl⟩
    rw [optNumber_iff] at h4
    exact ⟨⟨s1, word, s2, d⟩, by simp [Wd.text], h1, h2, h3, h4.1, h4.2⟩
  · rintro ⟨y, rfl, h1, h2, h3, h4, h5⟩
    exact ⟨y.s1, y.w, y.s2, y.d, h1, h2, h3, optNumber_iff.2 ⟨h4, h5⟩, by simp [Wd.text]⟩

theorem preWords_iff {w l : Str} : (w, l) ∈ preWords ↔ w ∈ spellings ∧ l = canonSpelling w := by
  constructor
  · intro h
    simp only [preWords, List.mem_cons, Prod.mk.injEq, List.not_mem_nil, or_false] at h
    rcases h with ⟨rfl, rfl⟩ | ⟨rfl, rfl⟩ | ⟨rfl, rfl⟩ | ⟨rfl, rfl⟩ | ⟨rfl, rfl⟩ | ⟨rfl, rfl⟩ | ⟨rfl, rfl⟩ | ⟨rfl, rfl⟩ <;>
      decide
  · rintro ⟨h, rfl⟩
    rcases spell_cases h with rfl | rfl | rfl | rfl | rfl | rfl | rfl | rfl <;> decide

theorem postWords_iff {w l : Str} : (w, l) ∈ postWords ↔ w ∈ ["post".toList, "rev".toList, "r".toList] ∧ l = "post".toList := by
  simp [postWords]
  constructor
  · rintro (⟨rfl, rfl⟩ | ⟨rfl, rfl⟩ | ⟨rfl, rfl⟩) <;> simp
  · rintro ⟨rfl | rfl | rfl, rfl⟩ <;> simp

theorem devWords_iff {w l : Str} : (w, l) ∈ devWords ↔ w ∈ ["dev".toList] ∧ l = "dev".toList := by
  simp [devWords]

theorem release_iff {w : Str} {ns : List Int} : ReleaseText w ns ↔
    ∃ r0 rs, w = r0 ++ relTxt rs ∧ Digits r0 ∧ (∀ d ∈ rs, Digits d) ∧ ns = (r0 :: rs).map numOf := by
  constructor
  · intro h
    induction h with
    | one h =>
      rw [number_iff] at h
      exact ⟨_, [], by simp [relTxt], h.1, by simp, by simp [h.2]⟩
    | more h _ ih =>
      rw [number_iff] at h
      obtain ⟨r0, rs, rfl, h0, hs, rfl⟩ := ih
      exact ⟨_, r0 :: rs, by simp [relTxt], h.1, by simpa using ⟨h0, hs⟩, by simp [h.2]⟩
  · rintro ⟨r0, rs, rfl, h0, hs, rfl⟩
    induction rs generalizing r0 with
    | nil =>
      simp only [relTxt, List.flatMap_nil, List.append_nil]
      exact .one (number_iff.2 ⟨h0, rfl⟩)
    | cons m ms ih =>
      have := ih m (hs m (by simp)) (fun d hd => hs d (by simp [hd]))
      have e : r0 ++ relTxt (m :: ms) = r0 ++ '.' :: (m ++ relTxt ms) := by simp [relTxt]
      rw [e]
      exact .more (number_iff.2 ⟨h0, rfl⟩) this

theorem seg_iff {w : Str} {g : Seg} : SegText w g ↔ LowA w ∧ g = segOf w := by
  constructor
  · rintro (⟨n, hn, rfl⟩ | ⟨h1, ⟨c, hc, hd⟩, rfl⟩)
    · rw [number_iff] at hn
      obtain ⟨hd, rfl⟩ := hn
      refine ⟨⟨hd.1, fun c hc => ?_⟩, ?_⟩
      · have := dig_mem.1 (hd.2 c hc)
        revert this
        clear hc
        revert c
        decide
      · rw [segOf, if_pos (List.all_eq_true.2 hd.2)]
    · refine ⟨⟨by rintro rfl; simp at hc, h1⟩, ?_⟩
      rw [segOf, if_neg]
      intro h
      exact hd (dig_mem.1 (List.all_eq_true.1 h c hc))
  · rintro ⟨h, rfl⟩
    unfold segOf
    by_cases hd : w.all isDig = true
    · rw [if_pos hd]
      exact Or.inl ⟨_, number_iff.2 ⟨⟨h.1, List.all_eq_true.1 hd⟩, rfl⟩, rfl⟩
    · rw [if_neg hd]
      refine Or.inr ⟨h.2, ?_, rfl⟩
      refine Classical.byContradiction fun hh => hd (List.all_eq_true.2 fun c hc => ?_)
      refine dig_mem.2 (Classical.byContradiction fun h' => hh ⟨c, hc, h'⟩)

theorem segs_iff {w : Str} {gs : List Seg} : SegsText w gs ↔
    ∃ g ws, w = g ++ locTxt ws ∧ LowA g ∧ (∀ q ∈ ws, isSep q.1 = true ∧ LowA q.2) ∧
      gs = (g :: ws.map (·.2)).map segOf := by
  constructor
  · intro h
    induction h with
    | one h =>
      rw [seg_iff] at h
      exact ⟨_, [], by simp [locTxt], h.1, by simp, by simp [h.2]⟩
    | more h hs hne _ ih =>
      rw [seg_iff] at h
      obtain ⟨g, ws, rfl, h0, hws, rfl⟩ := ih
      rcases sep_char hs with e | ⟨c, rfl, hc⟩
      · exact absurd e hne
      · refine ⟨_, (c, g) :: ws, by simp [locTxt], h.1, ?_, by simp [h.2]⟩
        intro q hq
        rw [List.mem_cons] at hq
        rcases hq with rfl | hq
        · exact ⟨hc, h0⟩
        · exact hws q hq
  · rintro ⟨g, ws, rfl, h0, hws, rfl⟩
    induction ws generalizing g with
    | nil =>
      simp only [locTxt, List.flatMap_nil, List.append_nil]
      exact .one (seg_iff.2 ⟨h0, rfl⟩)
    | cons m ms ih =>
      have := ih m.2 (hws m (by simp)).2 (fun d hd => hws d (by simp [hd]))
      have e : g ++ locTxt (m :: ms) = g ++ [m.1] ++ (m.2 ++ locTxt ms) := by simp [locTxt]
      rw [e]
      have hm := (hws m (by simp)).1
      exact .more (seg_iff.2 ⟨h0, rfl⟩) (sep_lang (Or.inr ⟨_, rfl, hm⟩)) (by simp) this

theorem numOf_nil : numOf [] = 0 := rfl

theorem says_iff {w : Str} {v : Ver} : Says w v ↔
    ∃ vv p, w = vv ++ Pieces.text p ∧ (vv = [] ∨ vv = ['v']) ∧ p.Ok ∧ p.Greedy ∧ v = p.val := by
  constructor
  · rintro ⟨vv, ep, rel, pre, post, dev, loc, rfl, hvv, hep, hrel, hpre, hpost, hdev, hloc, hg⟩
    obtain ⟨⟨epoch, release, vpre, vpost, vdev⟩, vloc⟩ := v
    dsimp only at *
    have ep' : ∃ e : Option Str, ep = (match e with | none => [] | some d => d ++ ['!']) ∧
        (∀ d, e = some d → Digits d) ∧ epoch = (match e with | none => 0 | some d => numOf d) := by
      rcases hep with ⟨rfl, rfl⟩ | ⟨d, hd, rfl⟩
      · exact ⟨none, rfl, by simp, rfl⟩
      · rw [number_iff] at hd
        exact ⟨some d, rfl, by rintro _ ⟨⟩; exact hd.1, hd.2⟩
    have pre' : ∃ y : Option Wd, pre = (match y with | none => [] | some y => y.text) ∧
        (∀ x, y = some x → x.Ok spellings) ∧ vpre = y.map (fun y => (canonSpelling y.w, numOf y.d)) := by
      rcases hpre with ⟨rfl, rfl⟩ | ⟨l, n, hw, rfl⟩
      · exact ⟨none, rfl, by simp, rfl⟩
      · rw [worded_iff] at hw
        obtain ⟨y, rfl, h1, h2, h3, h4, rfl⟩ := hw
        rw [preWords_iff] at h2
        exact ⟨some y, rfl, by rintro _ ⟨⟩; exact ⟨h1, h2.1, h3, h4⟩, by simp [h2.2]⟩
    have post' : ∃ y : Option (Str ⊕ Wd),
        post = (match y with | none => [] | some (.inl d) => '-' :: d | some (.inr y) => y.text) ∧
        (∀ d, y = some (.inl d) → Digits d) ∧
        (∀ x, y = some (.inr x) → x.Ok ["post".toList, "rev".toList, "r".toList]) ∧
        vpost = y.map (fun z => match z with | .inl d => numOf d | .inr y => numOf y.d) := by
      rcases hpost with ⟨rfl, rfl⟩ | ⟨d, n, hd, rfl, rfl⟩ | ⟨l, n, hw, rfl⟩
      · exact ⟨none, rfl, by simp, by simp, rfl⟩
      · rw [number_iff] at hd
        exact ⟨some (.inl d), rfl, by rintro _ ⟨⟩; exact hd.1, by rintro _ ⟨⟩, by simp [hd.2]⟩
      · rw [worded_iff] at hw
        obtain ⟨y, rfl, h1, h2, h3, h4, rfl⟩ := hw
        rw [postWords_iff] at h2
        exact ⟨some (.inr y), rfl, by rintro _ ⟨⟩, by rintro _ ⟨⟩; exact ⟨h1, h2.1, h3, h4⟩, rfl⟩
    have dev' : ∃ y : Option Wd, dev = (match y with | none => [] | some y => y.text) ∧
        (∀ x, y = some x → x.Ok ["dev".toList]) ∧ vdev = y.map (fun y => numOf y.d) := by
      rcases hdev with ⟨rfl, rfl⟩ | ⟨l, n, hw, rfl⟩
      · exact ⟨none, rfl, by simp, rfl⟩
      · rw [worded_iff] at hw
        obtain ⟨y, rfl, h1, h2, h3, h4, rfl⟩ := hw
        rw [devWords_iff] at h2
        exact ⟨some y, rfl, by rintro _ ⟨⟩; exact ⟨h1, h2.1, h3, h4⟩, rfl⟩
    have loc' : ∃ y : Option (Str × List (Char × Str)),
        loc = (match y with | none => [] | some (g, ws) => '+' :: (g ++ locTxt ws)) ∧
        (∀ g ws, y = some (g, ws) → LowA g ∧ ∀ q ∈ ws, isSep q.1 = true ∧ LowA q.2) ∧
        vloc = (match y with | none => [] | some (g, ws) => (g :: ws.map (·.2)).map segOf) := by
      rcases hloc with ⟨rfl, rfl⟩ | ⟨t, rfl, hs⟩
      · exact ⟨none, rfl, by simp, rfl⟩
      · rw [segs_iff] at hs
        obtain ⟨g, ws, rfl, h0, hws, rfl⟩ := hs
        exact ⟨some (g, ws), rfl, by rintro _ _ ⟨⟩; exact ⟨h0, hws⟩, rfl⟩
    rw [release_iff] at hrel
    obtain ⟨r0, rs, rfl, hr0, hrs, rfl⟩ := hrel
    obtain ⟨e, rfl, he, rfl⟩ := ep'
    obtain ⟨y, rfl, hy, rfl⟩ := pre'
    obtain ⟨z, rfl, hz1, hz2, rfl⟩ := post'
    obtain ⟨x, rfl, hx, rfl⟩ := dev'
    obtain ⟨l, rfl, hl', rfl⟩ := loc'
    refine ⟨vv, ⟨e, r0, rs, y, z, x, l⟩, ?_, hvv, ⟨he, hr0, hrs, hy, hz1, hz2, hx, hl'⟩, ?_, rfl⟩
    · simp only [Pieces.text, Pieces.relPart, Pieces.rest0, Pieces.rest1, Pieces.rest2, List.append_assoc]
      rfl
    · intro y' d hy' hd h
      dsimp only at hy' hd
      subst hy'
      subst hd
      have hd := hz1 d rfl
      have ok := hy y' rfl
      apply hg ⟨d, numOf d, number_iff.2 ⟨hd, rfl⟩, rfl⟩ y'.s1 y'.w (canonSpelling y'.w)
      · simp [Wd.text, h.1, h.2]
      · rw [preWords_iff]; exact ⟨ok.w, rfl⟩
  · rintro ⟨vv, p, rfl, hvv, ok, hg, rfl⟩
    refine ⟨vv, p.tEp, p.r0 ++ relTxt p.rs, p.tPre, p.tPost, p.tDev, p.tLoc, ?_, hvv, ?_, ?_, ?_, ?_, ?_, ?_, ?_⟩
    · simp [Pieces.text, Pieces.relPart, Pieces.rest0, Pieces.rest1, Pieces.rest2]
    · rcases he : p.ep with _ | d
      · exact Or.inl ⟨by simp [Pieces.tEp, he], by simp [Pieces.val, he]⟩
      · exact Or.inr ⟨d, number_iff.2 ⟨ok.ep d he, by simp [Pieces.val, he]⟩, by simp [Pieces.tEp, he]⟩
    · exact release_iff.2 ⟨_, _, rfl, ok.r0, ok.rs, rfl⟩
    · rcases he : p.pre with _ | y
      · exact Or.inl ⟨by simp [Pieces.tPre, he], by simp [Pieces.val, he]⟩
      · have oy := ok.pre y he
        exact Or.inr ⟨canonSpelling y.w, numOf y.d, worded_iff.2 ⟨y, by simp [Pieces.tPre, he], oy.s1,
          preWords_iff.2 ⟨oy.w, rfl⟩, oy.s2, oy.d, rfl⟩, by simp [Pieces.val, he]⟩
    · rcases he : p.post with _ | (d | y)
      · exact Or.inl ⟨by simp [Pieces.tPost, he], by simp [Pieces.val, he]⟩
      · exact Or.inr (Or.inl ⟨d, numOf d, number_iff.2 ⟨ok.post1 d he, rfl⟩, by simp [Pieces.tPost, he],
          by simp [Pieces.val, he]⟩)
      · have oy := ok.post2 y he
        exact Or.inr (Or.inr ⟨"post".toList, numOf y.d, worded_iff.2 ⟨y, by simp [Pieces.tPost, he], oy.s1,
          postWords_iff.2 ⟨oy.w, rfl⟩, oy.s2, oy.d, rfl⟩, by simp [Pieces.val, he]⟩)
    · rcases he : p.dev with _ | y
      · exact Or.inl ⟨by simp [Pieces.tDev, he], by simp [Pieces.val, he]⟩
      · have oy := ok.dev y he
        exact Or.inr ⟨"dev".toList, numOf y.d, worded_iff.2 ⟨y, by simp [Pieces.tDev, he], oy.s1,
          devWords_iff.2 ⟨oy.w, rfl⟩, oy.s2, oy.d, rfl⟩, by simp [Pieces.val, he]⟩
    · rcases he : p.loc with _ | ⟨g, ws⟩
      · exact Or.inl ⟨by simp [Pieces.tLoc, he], by simp [Pieces.val, he]⟩
      · have ol := ok.loc g ws he
        exact Or.inr ⟨g ++ locTxt ws, by simp [Pieces.tLoc, he], segs_iff.2 ⟨g, ws, rfl, ol.1, ol.2,
          by simp [Pieces.val, he]⟩⟩
    · rintro ⟨d, n, hd, e⟩ a word l e2 hw
      rw [preWords_iff] at hw
      have hword := hw.1
      rw [number_iff] at hd
      rcases hp : p.post with _ | (d' | z)
      · simp [Pieces.tPost, hp] at e
      · rcases hy : p.pre with _ | y
        · simp only [Pieces.tPre, hy] at e2
          have := spelling_ne_nil hword
          simp at e2
          exact this e2.2
        · simp only [Pieces.tPre, hy] at e2
          have oy := ok.pre y hy
          have hlast : ∃ c, word.getLast? = some c ∧ isSep c = false ∧ isDig c = false := by
            rcases spell_cases hword with rfl | rfl | rfl | rfl | rfl | rfl | rfl | rfl <;> exact ⟨_, rfl, by decide⟩
          obtain ⟨c, hc, hc1, hc2⟩ := hlast
          have hl2 : y.text.getLast? = some c := by
            rw [e2, List.getLast?_append, hc]; rfl
          apply hg y d' hy hp
          rcases oy.d with hd' | hd'
          · rcases sep_char oy.s2 with hs | ⟨b, hs, hb⟩
            · exact ⟨hs, hd'⟩
            · exfalso
              have : y.text.getLast? = some b := by
                simp only [Wd.text, hd', hs, List.append_nil]
                rw [← List.append_assoc, List.getLast?_concat]
              rw [hl2] at this; cases this
              rw [hb] at hc1; cases hc1
          · exfalso
            have : c ∈ y.d := by
              have h' : y.text.getLast? = y.d.getLast? := by
                simp only [Wd.text]
                rw [← List.append_assoc, ← List.append_assoc, List.getLast?_append]
                rcases hx : y.d.getLast? with _ | b
                · rw [List.getLast?_eq_none_iff] at hx; exact absurd hx hd'.1
                · rfl
              rw [hl2] at h'
              exact List.mem_of_getLast? h'.symm
            rw [hd'.2 c this] at hc2; cases hc2
      · have oz := ok.post2 z hp
        simp only [Pieces.tPost, hp] at e
        have hdig := hd.1
        obtain ⟨c, t, rfl⟩ := List.exists_cons_of_ne_nil hdig.1
        have hc := hdig.2 c (by simp)
        obtain ⟨s1, w, s2, dd⟩ := z
        have hw' : w = ['p', 'o', 's', 't'] ∨ w = ['r', 'e', 'v'] ∨ w = ['r'] := by simpa using oz.w
        have hs1 : Sep s1 := oz.s1
        rcases hw' with rfl | rfl | rfl <;> rcases hs1 with rfl | rfl | rfl | rfl <;> simp [Wd.text] at e <;>
          (rw [← e.1] at hc; revert hc; decide)

theorem lower_eq {c d : Char} (h : asciiLower c = d) (hd : ¬ (97 ≤ d.toNat ∧ d.toNat ≤ 122)) : c = d := by
  by_cases hc : 65 ≤ c.toNat ∧ c.toNat ≤ 90
  · exfalso
    unfold asciiLower at h
    rw [if_pos hc] at h
    apply hd
    rw [← h, ofNat_toNat32 hc]
    omega
  · rw [asciiLower_lower hc] at h; exact h

theorem lower_digits {u d : Str} (h : u.map asciiLower = d.map asciiLower) (hd : ∀ c ∈ d, isDig c = true) : u = d := by
  have e : d.map asciiLower = d := map_dig (fun c hc => Or.inl (hd c hc))
  rw [e] at h
  clear e
  induction u generalizing d with
  | nil => simpa using h
  | cons c u ih =>
    cases d with
    | nil => simp at h
    | cons x d =>
      rw [List.map_cons, List.cons.injEq] at h
      have hx := isDig_iff.1 (hd x (by simp))
      rw [lower_eq h.1 (by omega), ih h.2 (fun c hc => hd c (by simp [hc]))]

/-- the segments of the local label stand behind a `+` -/
theorem Pieces.seg_split {p : Pieces} {g : Str} {ws : List (Char × Str)} (hl : p.loc = some (g, ws)) {w : Str}
    (hw : w ∈ g :: ws.map (·.2)) : ∃ a b, p.text = a ++ w ++ b ∧ '+' ∈ a := by
  have key : ∃ a b, g ++ locTxt ws = a ++ w ++ b := by
    clear hl
    induction ws generalizing g with
    | nil =>
      simp at hw; subst hw
      exact ⟨[], [], by simp [locTxt]⟩
    | cons m ms ih =>
      rw [List.mem_cons] at hw
      rcases hw with rfl | hw
      · exact ⟨[], locTxt (m :: ms), by simp⟩
      · obtain ⟨a, b, e⟩ := ih (g := m.2) (by simpa using hw)
        exact ⟨g ++ m.1 :: a, b, by
          have : g ++ locTxt (m :: ms) = g ++ m.1 :: (m.2 ++ locTxt ms) := by simp [locTxt]
          rw [this, e]; simp⟩
  obtain ⟨a, b, e⟩ := key
  refine ⟨p.tEp ++ (p.r0 ++ (relTxt p.rs ++ (p.tPre ++ (p.tPost ++ (p.tDev ++ '+' :: a))))), b, ?_, by simp⟩
  simp only [Pieces.text, Pieces.relPart, Pieces.rest0, Pieces.rest1, Pieces.rest2, Pieces.tLoc, hl]
  rw [e]
  simp

theorem small_of {s a b body vv : Str} {p : Pieces} (hs : SmallLocal s) (e : s = a ++ body ++ b)
    (hb : SameUpToCase body (vv ++ p.text)) : p.Small := by
  intro g ws hl w hw hd
  obtain ⟨x, y, hx, hp⟩ := p.seg_split hl hw
  have hdig : ∀ c ∈ w, isDig c = true := List.all_eq_true.1 hd
  unfold SameUpToCase at hb
  rw [hx] at hb
  simp only [List.map_append] at hb
  rw [← List.append_assoc, ← List.append_assoc, List.append_assoc, List.map_eq_append_iff] at hb
  obtain ⟨b1, b2, rfl, h1, h2⟩ := hb
  rw [List.map_eq_append_iff] at h2
  obtain ⟨b3, b4, rfl, h3, h4⟩ := h2
  have h3 := lower_digits h3 hdig
  subst h3
  by_cases hne : b3 = []
  · subst hne; decide
  · refine hs (a ++ b1) b3 (b4 ++ b) (numOf b3) (by rw [e]; simp) ?_ (number_iff.2 ⟨⟨hne, hdig⟩, rfl⟩)
    have : '+' ∈ b1.map asciiLower := by
      rw [h1, List.mem_append]
      right
      rw [List.mem_map]
      exact ⟨'+', hp, by decide⟩
    rw [List.mem_map] at this
    obtain ⟨c, hc, hc'⟩ := this
    rw [List.mem_append]
    right
    rw [← lower_eq hc' (by decide)]
    exact hc

theorem Pieces.text_digit {p : Pieces} (h : p.Ok) : ∃ d t, p.text = d :: t ∧ isDig d = true := by
  unfold Pieces.text Pieces.tEp Pieces.relPart
  split
  · obtain ⟨c, w, e⟩ := List.exists_cons_of_ne_nil h.r0.1
    exact ⟨c, w ++ (relTxt p.rs ++ p.rest0), by simp [e], h.r0.2 c (by simp [e])⟩
  · rename_i d hd
    have := h.ep d hd
    obtain ⟨c, w, rfl⟩ := List.exists_cons_of_ne_nil this.1
    exact ⟨c, _, rfl, this.2 c (by simp)⟩

theorem parse_vv {p : Pieces} (h : p.Ok) {vv : Str} (hv : vv = [] ∨ vv = ['v']) :
    parseVersion (vv ++ p.text) = parseVersion p.text := by
  rcases hv with rfl | rfl
  · rfl
  · obtain ⟨d, t, e, hd⟩ := Pieces.text_digit h
    exact parse_v e hd (Or.inl rfl)

theorem parse_blank {a s b : Str} (ha : ∀ c ∈ a, reSpace c = true) (hb : ∀ c ∈ b, reSpace c = true) :
    parseVersion (a ++ s ++ b) = parseVersion s := by
  unfold parseVersion
  rw [match_blank a s b ha hb]

theorem blank_iff {s : Str} : Blank s ↔ ∀ c ∈ s, reSpace c = true := by
  simp [Blank, reSpace, or_assoc]

theorem Pieces.NF.greedy {p : Pieces} (h : p.NF) : p.Greedy := by
  intro y d hy hd hh
  have := h.pre y hy hh.1 hh.2
  have e : p.rest1 = '-' :: (d ++ p.rest2) := by simp [Pieces.rest1, Pieces.tPost, hd]
  have := this '-' _ e
  revert this; decide

/-- C106 (partial): for a text without U+017F (long s) and U+212A (Kelvin sign), and whose digit runs behind a `+` stay
below 2^31, `ParseVersion` accepts the text exactly if it belongs to the grammar of PEP 440 and its public numbers fit
an `int`, and returns the version the text says.  Without the provisos it is false, see `C106_violated_fold` and
`C106_violated_wrap`. -/
theorem C106_exact_partial (s : Str) (v : Ver) (h1 : '\u017f' ∉ s) (h2 : '\u212a' ∉ s) (h3 : SmallLocal s) :
    parseVersion s = .ok v ↔ Reads s v ∧ Fits v := by
  constructor
  · intro h
    rw [← parse_case] at h
    have hlow : Low (s.map asciiLower) := by
      intro c hc
      rw [List.mem_map] at hc
      obtain ⟨d, hd, rfl⟩ := hc
      refine ⟨?_, ?_, ?_⟩
      · intro hu
        by_cases hd' : 65 ≤ d.toNat ∧ d.toNat ≤ 90
        · unfold asciiLower at hu
          rw [if_pos hd', ofNat_toNat32 hd'] at hu
          omega
        · rw [asciiLower_lower hd'] at hu; exact hd' hu
      · intro e; exact h1 (lower_eq e (by decide) ▸ hd)
      · intro e; exact h2 (lower_eq e (by decide) ▸ hd)
    have hm : ∃ m, reVersion.matchFull (s.map asciiLower) = some m := by
      unfold parseVersion at h
      split at h
      · cases h
      · rename_i m hm; exact ⟨m, hm⟩
    obtain ⟨m, hm⟩ := hm
    obtain ⟨a', w', e, ha, core, b', rfl, hcore, hb⟩ := match_lang hm
    have ha := star_chr_lang ha
    have hb := star_chr_lang hb
    rw [e] at hlow
    obtain ⟨vv, p, rfl, hvv, ok⟩ := core_lang hcore hlow.right.left
    obtain ⟨q, oq, nf, ht, hl, -⟩ := Pieces.normal ok
    rw [e, ← List.append_assoc, parse_blank ha hb, parse_vv ok hvv, ← ht] at h
    rw [List.map_eq_append_iff] at e
    obtain ⟨a, s2, rfl, ea, e⟩ := e
    rw [List.map_eq_append_iff] at e
    obtain ⟨body, b, rfl, ebody, eb⟩ := e
    have hbl : ∀ {x y : Str}, x.map asciiLower = y → (∀ c ∈ y, reSpace c = true) → Blank x := by
      intro x y hxy hy
      rw [blank_iff]
      intro c hc
      have h' := hy (asciiLower c) (hxy ▸ List.mem_map_of_mem hc)
      have hr : ¬ (97 ≤ (asciiLower c).toNat ∧ (asciiLower c).toNat ≤ 122) := by
        simp only [reSpace, Bool.or_eq_true, decide_eq_true_eq] at h'
        rcases h' with (((h' | h') | h') | h') | h' <;> rw [h'] <;> decide
      rw [← lower_eq rfl hr] at h'
      exact h'
    have same : SameUpToCase body (vv ++ q.text) := by
      unfold SameUpToCase
      rw [ht]
      have hlow' : Low (vv ++ p.text) := hlow.right.left
      rw [ebody]
      have : ∀ w : Str, Low w → w.map asciiLower = w := by
        intro w hw
        induction w with
        | nil => rfl
        | cons c w ih =>
          rw [List.map_cons, asciiLower_lower (hw c (by simp)).1, ih (fun d hd => hw d (by simp [hd]))]
      rw [this _ hlow']
    have small : q.Small := small_of h3 (by rw [List.append_assoc]) same
    have hp := Pieces.parse_pieces oq nf small
    by_cases hf : Fits q.val
    · rw [hp.1 hf] at h
      injection h with h
      subst h
      exact ⟨⟨a, body, b, vv ++ q.text, by simp, hbl ea ha, hbl eb hb, same,
        says_iff.2 ⟨vv, q, rfl, hvv, oq, nf.greedy, rfl⟩⟩, hf⟩
    · rw [hp.2 hf] at h; cases h
  · rintro ⟨⟨a, body, b, w, rfl, ha, hb, hsame, hsays⟩, hf⟩
    obtain ⟨vv, p, rfl, hvv, ok, hg, rfl⟩ := says_iff.1 hsays
    obtain ⟨q, oq, nf, ht, hl, hv⟩ := Pieces.normal ok
    have hv := hv hg
    rw [parse_blank (blank_iff.1 ha) (blank_iff.1 hb), ← parse_case body, hsame, parse_case, parse_vv ok hvv, ← ht]
    have small : q.Small := small_of h3 rfl (ht ▸ hsame)
    rw [(Pieces.parse_pieces oq nf small).1 (hv ▸ hf), hv]

theorem numOf_bound (d : Str) (h : ∀ c ∈ d, isDig c = true) : numOf d < 10 ^ d.length := by
  have key : ∀ (d : Str) (acc : Nat), (∀ c ∈ d, isDig c = true) →
      d.foldl (fun acc c => acc * 10 + digVal c) acc < (acc + 1) * 10 ^ d.length := by
    intro d
    induction d with
    | nil => intro acc _; simp
    | cons c d ih =>
      intro acc h
      have hc := isDig_iff.1 (h c (by simp))
      have hv : digVal c ≤ 9 := by
        have : digVal c = c.toNat - 48 := rfl
        omega
      refine Nat.lt_of_lt_of_le (ih (acc * 10 + digVal c) (fun x hx => h x (by simp [hx]))) ?_
      rw [List.length_cons, Nat.pow_succ, Nat.mul_comm (10 ^ d.length) 10, ← Nat.mul_assoc]
      exact Nat.mul_le_mul_right _ (by omega)
  have := key d 0 h
  simp only [numOf, digitsVal]
  rw [Nat.zero_add, Nat.one_mul] at this
  exact_mod_cast this

/-- at most nine characters behind the first `+` -/
theorem small_of_length {x y : Str} (hx : '+' ∉ x) (hy : y.length ≤ 9) : SmallLocal (x ++ '+' :: y) := by
  intro a d b n e ha hn
  rw [number_iff] at hn
  obtain ⟨hd, rfl⟩ := hn
  have hb := numOf_bound d hd.2
  have hlen : d.length ≤ 9 := by
    have h1 : x.length < a.length := by
      by_cases h : x.length < a.length
      · exact h
      · exfalso
        have : a = x.take a.length := by
          have := congrArg (List.take a.length) e
          rw [List.append_assoc, List.take_left, List.take_append_of_le_length (by omega)] at this
          exact this.symm
        rw [this] at ha
        exact hx (List.mem_of_mem_take ha)
    have := congrArg List.length e
    simp at this
    omega
  have h9 : (10 : Int) ^ d.length ≤ 10 ^ 9 := by
    have : 10 ^ d.length ≤ 10 ^ 9 := Nat.pow_le_pow_right (by decide) hlen
    exact_mod_cast this
  have : (10 : Int) ^ 9 < 2 ^ 31 := by decide
  omega

theorem small_of_none {x : Str} (hx : '+' ∉ x) : SmallLocal x := by
  intro a d b n e ha _
  exact absurd (by rw [e]; simp [ha]) hx

/-- all spellings at once -/
example : Reads " V1!2.0-Alpha_3.rev-4_DEV+Ubuntu-1 ".toList
    { epoch := 1, release := [2, 0], pre := some ("a".toList, 3), post := some 4, dev := some 0,
      loc := [.str "ubuntu".toList, .int 1] } :=
  ((C106_exact_partial _ _ (by decide) (by decide)
    (small_of_length (x := " V1!2.0-Alpha_3.rev-4_DEV".toList) (y := "Ubuntu-1 ".toList) (by decide) (by decide))).1
    (by decide +kernel)).1

/-- the number of `a-1` belongs to the pre-release, that of `a1-1` is a post-release -/
example : Reads "1a-1".toList
      { epoch := 0, release := [1], pre := some ("a".toList, 1), post := none, dev := none, loc := [] } ∧
    Reads "1a1-1".toList
      { epoch := 0, release := [1], pre := some ("a".toList, 1), post := some 1, dev := none, loc := [] } :=
  ⟨((C106_exact_partial _ _ (by decide) (by decide) (small_of_none (by decide))).1 (by decide +kernel)).1,
   ((C106_exact_partial _ _ (by decide) (by decide) (small_of_none (by decide))).1 (by decide +kernel)).1⟩

/-- not in the grammar: the parser refuses it, so no version is said -/
example : ∀ v, ¬ (Reads "1.0.".toList v ∧ Fits v) := fun v h => by
  have := (C106_exact_partial _ v (by decide) (by decide) (small_of_none (by decide))).2 h
  have e : parseVersion "1.0.".toList = .error () := by decide +kernel
  rw [e] at this; cases this

theorem C106_violated_wrap : ∃ v w, parseVersion "1+2147483648".toList = .ok v ∧
    Reads "1+2147483648".toList w ∧ Fits w ∧ v ≠ w := by
  refine ⟨{ epoch := 0, release := [1], pre := none, post := none, dev := none, loc := [.int (-2147483648)] },
    { epoch := 0, release := [1], pre := none, post := none, dev := none, loc := [.int 2147483648] },
    by decide +kernel, ⟨[], _, [], "1+2147483648".toList, by simp, by simp [Blank], by simp [Blank], rfl, ?_⟩, ?_,
    by decide⟩
  · refine ⟨[], [], "1".toList, [], [], [], "+2147483648".toList, by decide, Or.inl rfl, Or.inl ⟨rfl, rfl⟩,
      .one ⟨by decide, by decide, by decide⟩, Or.inl ⟨rfl, rfl⟩, Or.inl ⟨rfl, rfl⟩, Or.inl ⟨rfl, rfl⟩,
      Or.inr ⟨"2147483648".toList, by decide, .one (Or.inl ⟨_, ⟨by decide, by decide, by decide +kernel⟩, rfl⟩)⟩, ?_⟩
    rintro ⟨d, n, -, h⟩; cases h
  · simp [Fits]

theorem says_chars {w : Str} {v : Ver} (h : Says w v) :
    ∀ c ∈ w, c ∈ "abcdefghijklmnopqrstuvwxyz0123456789.-_!+".toList := by
  obtain ⟨vv, p, rfl, hvv, ok, -, -⟩ := says_iff.1 h
  have dig : ∀ {d : Str}, Digits d → ∀ c ∈ d, c ∈ "abcdefghijklmnopqrstuvwxyz0123456789.-_!+".toList := by
    intro d hd c hc
    have := dig_mem.1 (hd.2 c hc)
    clear hc; revert c; decide
  have sep : ∀ {d : Str}, Sep d → ∀ c ∈ d, c ∈ "abcdefghijklmnopqrstuvwxyz0123456789.-_!+".toList := by
    rintro d (rfl | rfl | rfl | rfl) <;> decide
  have num : ∀ {d : Str}, d = [] ∨ Digits d → ∀ c ∈ d, c ∈ "abcdefghijklmnopqrstuvwxyz0123456789.-_!+".toList := by
    rintro d (rfl | hd)
    · simp
    · exact dig hd
  have wd : ∀ {y : Wd} {ws : List Str}, y.Ok ws →
      (∀ x ∈ ws, ∀ c ∈ x, c ∈ "abcdefghijklmnopqrstuvwxyz0123456789.-_!+".toList) →
      ∀ c ∈ y.text, c ∈ "abcdefghijklmnopqrstuvwxyz0123456789.-_!+".toList := by
    intro y ws hy hws c hc
    simp only [Wd.text, List.mem_append] at hc
    rcases hc with hc | hc | hc | hc
    · exact sep hy.s1 c hc
    · exact hws _ hy.w c hc
    · exact sep hy.s2 c hc
    · exact num hy.d c hc
  have low : ∀ {d : Str}, LowA d → ∀ c ∈ d, c ∈ "abcdefghijklmnopqrstuvwxyz0123456789.-_!+".toList := by
    intro d hd c hc
    have := hd.2 c hc
    clear hc; revert c; decide
  intro c hc
  simp only [Pieces.text, Pieces.relPart, Pieces.rest0, Pieces.rest1, Pieces.rest2, List.mem_append] at hc
  rcases hc with hc | hc | hc | hc | hc | hc | hc | hc
  · rcases hvv with rfl | rfl <;> revert c <;> decide
  · unfold Pieces.tEp at hc
    split at hc
    · cases hc
    · rename_i d hd
      rw [List.mem_append] at hc
      rcases hc with hc | hc
      · exact dig (ok.ep d hd) c hc
      · revert c; decide
  · exact dig ok.r0 c hc
  · simp only [relTxt, List.mem_flatMap, List.mem_cons] at hc
    obtain ⟨d, hd, rfl | hc⟩ := hc
    · decide
    · exact dig (ok.rs d hd) c hc
  · unfold Pieces.tPre at hc
    split at hc
    · cases hc
    · rename_i y hy; exact wd (ok.pre y hy) (by decide) c hc
  · unfold Pieces.tPost at hc
    split at hc
    · cases hc
    · rename_i d hd
      rw [List.mem_cons] at hc
      rcases hc with rfl | hc
      · decide
      · exact dig (ok.post1 d hd) c hc
    · rename_i y hy; exact wd (ok.post2 y hy) (by decide) c hc
  · unfold Pieces.tDev at hc
    split at hc
    · cases hc
    · rename_i y hy; exact wd (ok.dev y hy) (by decide) c hc
  · unfold Pieces.tLoc at hc
    split at hc
    · cases hc
    · rename_i g ws hl
      have ol := ok.loc g ws hl
      simp only [List.mem_cons, List.mem_append, locTxt, List.mem_flatMap] at hc
      rcases hc with rfl | hc | ⟨q, hq, rfl | hc⟩
      · decide
      · exact low ol.1 c hc
      · have := (ol.2 q hq).1
        simp only [isSep, Bool.or_eq_true, decide_eq_true_eq] at this
        rcases this with (h | h) | h <;> rw [h] <;> decide
      · exact low (ol.2 q hq).2 c hc

/-- C106 is violated for the two letters outside ASCII that `(?i)` folds to ASCII ones: a local label may contain
them. -/
theorem C106_violated_fold : ∃ v, parseVersion "1+\u017f".toList = .ok v ∧ ∀ w, ¬ Reads "1+\u017f".toList w := by
  refine ⟨{ epoch := 0, release := [1], pre := none, post := none, dev := none, loc := [.str "\u017f".toList] },
    by decide +kernel, ?_⟩
  rintro w ⟨a, body, b, t, e, ha, hb, hs, hsay⟩
  have hmem : '\u017f' ∈ a ++ body ++ b := by rw [← e]; decide
  simp only [List.mem_append] at hmem
  rcases hmem with (h | h) | h
  · have := ha _ h; revert this; decide
  · have h' : asciiLower '\u017f' ∈ t.map asciiLower := by
      rw [← show body.map asciiLower = t.map asciiLower from hs]; exact List.mem_map_of_mem h
    rw [List.mem_map] at h'
    obtain ⟨c, hc, hc'⟩ := h'
    have : c = '\u017f' := lower_eq hc' (by decide)
    subst this
    have := says_chars hsay _ hc
    revert this; decide
  · have := hb _ h; revert this; decide

end Pep440
