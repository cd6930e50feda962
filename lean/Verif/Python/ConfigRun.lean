import Verif.Python.ConfigLemmas
/-! The run of the model of the parser over a list of lines follows the grammar. -/
namespace Python
open Go

variable {p : Parser}

/-- the rest of a run, from a state -/
def finish (p : Parser) (st : CfgState) (ls : List Str) : Except Unit Config :=
  (cfgLines p st ls).bind fun st => .ok (flushKV st).cfg

theorem finish_nil (st : CfgState) : finish p st [] = .ok (flushKV st).cfg := rfl

theorem finish_ok {st st' : CfgState} {l : Str} {ls : List Str} (h : cfgLine p st l = .ok st') :
    finish p st (l :: ls) = finish p st' ls := by
  unfold finish
  rw [cfgLines, h]
  rfl

theorem finish_error {st : CfgState} {l : Str} {ls : List Str} (h : cfgLine p st l = .error ()) :
    finish p st (l :: ls) = .error () := by
  unfold finish
  rw [cfgLines, h]
  rfl

/-- in a section, no value open -/
def stB (pre : Config) (s : Str) (os : List (Str × Str)) (ind : Nat) (key : Str) : CfgState := ⟨pre ++ [(s, os)], ind, some s, key, none⟩

/-- in a section, the value of `k` open -/
def stC (pre : Config) (s : Str) (os : List (Str × Str)) (ind : Nat) (k : Str) (vs : List Str) : CfgState :=
  ⟨pre ++ [(s, os)], ind, some s, k, some vs⟩

theorem flush_B (pre : Config) (s : Str) (os : List (Str × Str)) (ind : Nat) (key : Str) : flushKV (stB pre s os ind key) = stB pre s os ind key := rfl

theorem flush_C {pre : Config} {s : Str} (hs : s ∉ pre.map (·.1)) {os : List (Str × Str)} {ind : Nat} {k : Str} {vs : List Str}
    (hk : k ∉ os.map (·.1)) : flushKV (stC pre s os ind k vs) = stB pre s (os ++ [(k, Spec.value vs)]) ind [] := by
  unfold flushKV stC stB
  simp only
  rw [getKey_last hs, Option.getD_some, setKey_new hk, setKey_last hs]
  rfl

/-- a section header, after a section -/
theorem section_B {pre : Config} {s : Str} {os : List (Str × Str)} {ind : Nat} {key : Str} (hp : p.strict = true) (lev : Nat) (n : Str) :
    sectionLine p (stB pre s os ind key) lev ('[' :: (n ++ [']'])) =
      if n ∈ (pre ++ [(s, os)]).map (·.1) then .error () else .ok (stB (pre ++ [(s, os)]) n [] lev key) := by
  unfold sectionLine
  rw [flush_B, header_name]
  unfold stB
  simp only
  by_cases h : n ∈ (pre ++ [(s, os)]).map (·.1)
  · rw [if_pos h, if_neg (by rw [getKey_none]; exact fun x => x h), if_pos hp]
  · rw [if_neg h, if_pos (getKey_none.mpr h), setKey_new h]

theorem option_B {pre : Config} {s : Str} (hs : s ∉ pre.map (·.1)) {os : List (Str × Str)} {ind : Nat} {key : Str} (hp : p.strict = true)
    (lev : Nat) {a b : Str} {c : Char} (hf : findSep p.delimiters (a ++ c :: b) = (a.length, 1)) :
    optionLine p (stB pre s os ind key) lev (a ++ c :: b) =
      if p.transform (trimSpace a) ∈ os.map (·.1) then .error ()
      else .ok (stC pre s os lev (p.transform (trimSpace a)) [trimSpace b]) := by
  unfold optionLine
  rw [flush_B]
  unfold stB stC
  simp only [hf, getKey_last hs, Option.getD_some, hp, true_and]
  rw [if_neg (by simp), List.take_left']
  · rw [show (a ++ c :: b).drop (a.length + 1) = b by simp]
    by_cases h : p.transform (trimSpace a) ∈ os.map (·.1)
    · rw [if_pos h, if_pos]
      cases hg : getKey (p.transform (trimSpace a)) os with
      | some _ => rfl
      | none => exact absurd h (getKey_none.mp hg)
    · rw [if_neg h, getKey_none.mpr h, if_neg (by decide)]
  · rfl

/-- a line that ends a value is treated as if the value were stored -/
theorem line_C_done (hu : Spec.Usual p) {l : Str} (hl : Spec.Content p l) {pre : Config} {s : Str} (hs : s ∉ pre.map (·.1))
    {os : List (Str × Str)} {ind : Nat} {k : Str} {vs : List Str} (hk : k ∉ os.map (·.1)) (hi : Spec.indent l = 0 ∨ Spec.indent l ≤ ind) :
    cfgLine p (stC pre s os ind k vs) l = cfgLine p (stB pre s (os ++ [(k, Spec.value vs)]) ind []) l := by
  have n1 : ¬ ((stC pre s os ind k vs).val.isSome ∧ 0 < Spec.indent l ∧ (stC pre s os ind k vs).indent < Spec.indent l) := by
    rintro ⟨_, h1, h2⟩; have : ind < Spec.indent l := h2; omega
  have n2 : ¬ ((stB pre s (os ++ [(k, Spec.value vs)]) ind []).val.isSome ∧ 0 < Spec.indent l ∧
      (stB pre s (os ++ [(k, Spec.value vs)]) ind []).indent < Spec.indent l) := by
    rintro ⟨h1, _⟩; cases h1
  rw [line_content hu hl, line_content hu hl, if_neg n1, if_neg n2]
  unfold sectionLine optionLine
  rw [flush_C hs hk, flush_B]

theorem comment_not_content {l : Str} (h : Spec.Comment p l ∨ Spec.Blank l) : ¬ Spec.Content p l := by
  rintro ⟨h1, h2⟩; exact h.elim h1 h2

theorem options_skip {l : Str} {ls rest : List Str} {os : List (Str × List Str)} (h : Spec.Comment p l ∨ Spec.Blank l) :
    Spec.Options p (l :: ls) os rest ↔ Spec.Options p ls os rest := by
  constructor
  · intro ho
    cases ho with
    | done h1 _ => exact absurd h1 (comment_not_content h)
    | skip _ h2 => exact h2
    | opt h1 _ _ _ _ => exact absurd h1 (comment_not_content h)
  · exact .skip h

theorem document_skip {l : Str} {ls : List Str} {d : List (Str × List (Str × List Str))} (h : Spec.Comment p l ∨ Spec.Blank l) :
    Spec.Document p (l :: ls) d ↔ Spec.Document p ls d := by
  constructor
  · intro ho
    cases ho with
    | skip _ h2 => exact h2
    | sect h1 _ _ _ => exact absurd h1 (comment_not_content h)
  · exact .skip h

theorem header_inj {l s t : Str} (h1 : Spec.SectionHeader l s) (h2 : Spec.SectionHeader l t) : s = t := by
  unfold Spec.SectionHeader at h1 h2
  rw [h1] at h2
  simpa using h2

theorem document_header {l s : Str} (h : Spec.Content p l) (hs : Spec.SectionHeader l s) {ls : List Str}
    {d : List (Str × List (Str × List Str))} :
    Spec.Document p (l :: ls) d ↔ ∃ os rest d', Spec.Options p ls os rest ∧ Spec.Document p rest d' ∧ d = (s, os) :: d' := by
  constructor
  · intro hd
    cases hd with
    | skip h1 _ => exact absurd h (comment_not_content h1)
    | sect h1 h2 h3 h4 => exact ⟨_, _, _, h3, h4, by rw [header_inj hs h2]⟩
  · rintro ⟨os, rest, d', h1, h2, rfl⟩
    exact .sect h hs h1 h2

theorem keyValue_det {l a b : Str} {c : Char} (hl : trimSpace l = a ++ c :: b) (hc : [c] ∈ p.delimiters)
    (ha : ∀ x ∈ a, [x] ∉ p.delimiters) {k v : Str} (h : Spec.KeyValue p l k v) : k = p.transform (trimSpace a) ∧ v = trimSpace b := by
  obtain ⟨a', c', b', hl', hc', ha', rfl, rfl⟩ := h
  have e : a ++ c :: b = a' ++ c' :: b' := hl.symm.trans hl'
  have e2 : a = a' := by
    rcases Nat.lt_trichotomy a.length a'.length with hlt | heq | hlt
    · exfalso
      have h1 : (a' ++ c' :: b')[a.length]? = some c := by rw [← e]; simp
      rw [List.getElem?_append_left hlt] at h1
      exact ha' c (List.mem_of_getElem? h1) hc
    · exact (List.append_inj e heq).1
    · exfalso
      have h1 : (a ++ c :: b)[a'.length]? = some c' := by rw [e]; simp
      rw [List.getElem?_append_left hlt] at h1
      exact ha c' (List.mem_of_getElem? h1) hc'
  subst e2
  have := List.append_cancel_left e
  rw [List.cons.injEq] at this
  rw [this.2]
  exact ⟨rfl, rfl⟩

/-- the options as they are stored -/
def stored (os : List (Str × List Str)) : List (Str × Str) := os.map (fun o => (o.1, Spec.value o.2))

theorem stored_keys (os : List (Str × List Str)) : (stored os).map (·.1) = os.map (·.1) := by simp [stored]

/-- what is left, after the options of the current section: sections that are new -/
def Rest (p : Parser) (rest : List Str) (names : List Str) (d : List (Str × List (Str × List Str))) : Prop :=
  Spec.Document p rest d ∧ (names ++ d.map (·.1)).Nodup ∧ ∀ e ∈ d, (e.2.map (·.1)).Nodup

/-- claim about runs with no value open -/
def RunB (p : Parser) (ls : List Str) : Prop :=
  ∀ (pre : Config) (s : Str) (os : List (Str × Str)) (ind : Nat) (key : Str) (cfg : Config),
    (pre.map (·.1) ++ [s]).Nodup → (os.map (·.1)).Nodup →
    (finish p (stB pre s os ind key) ls = .ok cfg ↔
      ∃ os' rest d, Spec.Options p ls os' rest ∧ Rest p rest (pre.map (·.1) ++ [s]) d ∧
        (os.map (·.1) ++ os'.map (·.1)).Nodup ∧ cfg = pre ++ (s, os ++ stored os') :: Spec.toConfig d)

/-- claim about runs with a value open -/
def RunC (p : Parser) (ls : List Str) : Prop :=
  ∀ (pre : Config) (s : Str) (os : List (Str × Str)) (ind : Nat) (k : Str) (vs : List Str) (cfg : Config),
    (pre.map (·.1) ++ [s]).Nodup → (os.map (·.1) ++ [k]).Nodup →
    (finish p (stC pre s os ind k vs) ls = .ok cfg ↔
      ∃ vs' mid os' rest d, Spec.Continues p ind ls vs' mid ∧ Spec.Options p mid os' rest ∧ Rest p rest (pre.map (·.1) ++ [s]) d ∧
        (os.map (·.1) ++ k :: os'.map (·.1)).Nodup ∧
        cfg = pre ++ (s, os ++ stored ((k, vs ++ vs') :: os')) :: Spec.toConfig d)

theorem not_mem_pre {l : List Str} {a : Str} (h : (l ++ [a]).Nodup) : a ∉ l := by
  rw [List.nodup_append] at h
  intro hm
  exact h.2.2 a hm a (by simp) rfl

theorem nodup_snoc {l : List Str} {a : Str} (h : l.Nodup) (ha : a ∉ l) : (l ++ [a]).Nodup := by
  rw [List.nodup_append]
  refine ⟨h, by simp, ?_⟩
  intro x hx y hy e
  rw [List.mem_singleton] at hy
  subst hy; subst e
  exact ha hx

theorem runB_nil : RunB p [] := by
  intro pre s os ind key cfg hn ho
  rw [finish_nil, flush_B]
  constructor
  · intro h
    cases h
    exact ⟨[], [], [], .eof, ⟨.eof, by simpa using hn, by simp⟩, by simpa using ho, by simp [stB, stored, Spec.toConfig]⟩
  · rintro ⟨os', rest, d, h1, ⟨h2, _, _⟩, _, rfl⟩
    cases h1
    cases h2
    simp [stB, stored, Spec.toConfig]

theorem runC_nil : RunC p [] := by
  intro pre s os ind k vs cfg hn ho
  rw [finish_nil, flush_C (not_mem_pre hn) (not_mem_pre ho)]
  constructor
  · intro h
    cases h
    exact ⟨[], [], [], [], [], .eof, .eof, ⟨.eof, by simpa using hn, by simp⟩, by simpa using ho, by simp [stB, stored, Spec.toConfig]⟩
  · rintro ⟨vs', mid, os', rest, d, h0, h1, ⟨h2, _, _⟩, _, rfl⟩
    cases h0
    cases h1
    cases h2
    simp [stB, stored, Spec.toConfig]

theorem runB_cons (hu : Spec.Usual p) {l : Str} {ls : List Str} (hB : RunB p ls) (hC : RunC p ls) : RunB p (l :: ls) := by
  intro pre s os ind key cfg hn ho
  have hs := not_mem_pre hn
  by_cases hc : Spec.Comment p l
  · rw [finish_ok (line_comment hu hc _), hB _ _ _ _ _ _ hn ho]
    simp only [options_skip (Or.inl hc)]
  by_cases hb : Spec.Blank l
  · rw [finish_ok (line_blank hu hb hc _)]
    rw [show ({ stB pre s os ind key with val := (stB pre s os ind key).val.map (· ++ [[]]) } : CfgState) = stB pre s os ind key from rfl,
      hB _ _ _ _ _ _ hn ho]
    simp only [options_skip (Or.inr hb)]
  have hl : Spec.Content p l := ⟨hc, hb⟩
  have hline := line_content hu hl (stB pre s os ind key)
  rw [if_neg (by rintro ⟨h1, _⟩; cases h1)] at hline
  by_cases hh : (hasPrefix (trimSpace l) ['['] && hasSuffix (trimSpace l) [']']) = true
  · rw [if_pos hh] at hline
    obtain ⟨n, hn'⟩ := (header_iff _).mp hh
    have hd : Spec.SectionHeader l n := hn'
    rw [hn', section_B hu.strict] at hline
    have hopt : ∀ os' rest, Spec.Options p (l :: ls) os' rest ↔ os' = [] ∧ rest = l :: ls := by
      intro os' rest
      constructor
      · intro h
        cases h with
        | done => exact ⟨rfl, rfl⟩
        | skip h1 _ => exact absurd hl (comment_not_content h1)
        | opt _ h2 _ _ _ => exact absurd hd (h2 n)
      · rintro ⟨rfl, rfl⟩
        exact .done hl hd
    by_cases hm : n ∈ (pre ++ [(s, os)]).map (·.1)
    · rw [if_pos hm] at hline
      rw [finish_error hline]
      refine ⟨fun h => (nomatch h), ?_⟩
      rintro ⟨os', rest, d, h1, ⟨h2, h3, _⟩, _⟩
      obtain ⟨rfl, rfl⟩ := (hopt _ _).mp h1
      obtain ⟨os'', rest', d', _, _, rfl⟩ := (document_header hl hd).mp h2
      exfalso
      rw [List.nodup_append] at h3
      exact h3.2.2 n (by simpa using hm) n (by simp) rfl
    · rw [if_neg hm] at hline
      have hm' : n ∉ pre.map (·.1) ++ [s] := by simpa using hm
      rw [finish_ok hline, hB _ _ _ _ _ _ (by rw [List.map_append]; exact nodup_snoc hn hm') (by simp)]
      constructor
      · rintro ⟨os', rest, d, h1, ⟨h2, h3, h4⟩, h5, rfl⟩
        refine ⟨[], l :: ls, (n, os') :: d, (hopt _ _).mpr ⟨rfl, rfl⟩, ⟨(document_header hl hd).mpr ⟨_, _, _, h1, h2, rfl⟩, ?_, ?_⟩,
          by simpa using ho, ?_⟩
        · simpa using h3
        · intro e he
          rcases List.mem_cons.mp he with rfl | he
          · simpa using h5
          · exact h4 e he
        · simp [Spec.toConfig, stored]
      · rintro ⟨os', rest, d, h1, ⟨h2, h3, h4⟩, h5, rfl⟩
        obtain ⟨rfl, rfl⟩ := (hopt _ _).mp h1
        obtain ⟨os'', rest', d', h6, h7, rfl⟩ := (document_header hl hd).mp h2
        refine ⟨os'', rest', d', h6, ⟨h7, by simpa using h3, fun e he => h4 e (by simp [he])⟩, ?_, ?_⟩
        · simpa using h4 (n, os'') (by simp)
        · simp [Spec.toConfig, stored]
  · rw [if_neg hh] at hline
    have hd : ∀ t, ¬ Spec.SectionHeader l t := fun t ht => hh ((header_iff _).mpr ⟨t, ht⟩)
    rcases findSep_spec hu.delims (trimSpace l) with ⟨hf, hno⟩ | ⟨a, c, b, hv, hcd, ha, hf⟩
    · have : optionLine p (stB pre s os ind key) (Spec.indent l) (trimSpace l) = .error () := by
        unfold optionLine
        rw [flush_B]
        simp only [stB, hf]
        rw [if_pos trivial]
      rw [this] at hline
      rw [finish_error hline]
      refine ⟨fun h => (nomatch h), ?_⟩
      rintro ⟨os', rest, d, h1, _⟩
      exfalso
      cases h1 with
      | done _ h2 => exact hd _ h2
      | skip h1 _ => exact comment_not_content h1 hl
      | opt _ _ h3 _ _ =>
        obtain ⟨a, c, b, e, hcd, _⟩ := h3
        exact hno c (by rw [e]; simp) hcd
    · rw [hv] at hf hline
      rw [option_B hs hu.strict _ hf] at hline
      have hkv : Spec.KeyValue p l (p.transform (trimSpace a)) (trimSpace b) := ⟨a, c, b, hv, hcd, ha, rfl, rfl⟩
      have hopt : ∀ os' rest, Spec.Options p (l :: ls) os' rest ↔ ∃ vs mid os'', Spec.Continues p (Spec.indent l) ls vs mid ∧
          Spec.Options p mid os'' rest ∧ os' = (p.transform (trimSpace a), trimSpace b :: vs) :: os'' := by
        intro os' rest
        constructor
        · intro h
          cases h with
          | done _ h2 => exact absurd h2 (hd _)
          | skip h1 _ => exact absurd hl (comment_not_content h1)
          | opt _ _ h3 h4 h5 =>
            obtain ⟨rfl, rfl⟩ := keyValue_det hv hcd ha h3
            exact ⟨_, _, _, h4, h5, rfl⟩
        · rintro ⟨vs, mid, os'', h1, h2, rfl⟩
          exact .opt hl hd hkv h1 h2
      by_cases hm : p.transform (trimSpace a) ∈ os.map (·.1)
      · rw [if_pos hm] at hline
        rw [finish_error hline]
        refine ⟨fun h => (nomatch h), ?_⟩
        rintro ⟨os', rest, d, h1, _, h3, _⟩
        obtain ⟨vs, mid, os'', _, _, rfl⟩ := (hopt _ _).mp h1
        exfalso
        rw [List.nodup_append] at h3
        exact h3.2.2 _ hm _ (by simp) rfl
      · rw [if_neg hm] at hline
        rw [finish_ok hline, hC _ _ _ _ _ _ _ hn (nodup_snoc ho hm)]
        constructor
        · rintro ⟨vs', mid, os', rest, d, h1, h2, h3, h4, rfl⟩
          exact ⟨_, rest, d, (hopt _ _).mpr ⟨vs', mid, os', h1, h2, rfl⟩, h3, by simpa using h4, by simp⟩
        · rintro ⟨os', rest, d, h1, h2, h3, rfl⟩
          obtain ⟨vs, mid, os'', h4, h5, rfl⟩ := (hopt _ _).mp h1
          exact ⟨vs, mid, os'', rest, d, h4, h5, h2, by simpa using h3, by simp⟩

theorem runC_cons (hu : Spec.Usual p) {l : Str} {ls : List Str} (hB : RunB p (l :: ls)) (hC : RunC p ls) : RunC p (l :: ls) := by
  intro pre s os ind k vs cfg hn ho
  have hs := not_mem_pre hn
  have hk := not_mem_pre ho
  by_cases hc : Spec.Comment p l
  · rw [finish_ok (line_comment hu hc _), hC _ _ _ _ _ _ _ hn ho]
    have : ∀ vs' mid, Spec.Continues p ind (l :: ls) vs' mid ↔ Spec.Continues p ind ls vs' mid := by
      intro vs' mid
      constructor
      · intro h
        cases h with
        | done h1 _ => exact absurd h1 (comment_not_content (Or.inl hc))
        | comment _ h2 => exact h2
        | blank h1 _ => exact absurd hc (blank_not_comment hu h1)
        | more h1 _ _ _ => exact absurd h1 (comment_not_content (Or.inl hc))
      · exact .comment hc
    simp only [this]
  by_cases hb : Spec.Blank l
  · rw [finish_ok (line_blank hu hb hc _)]
    rw [show ({ stC pre s os ind k vs with val := (stC pre s os ind k vs).val.map (· ++ [[]]) } : CfgState) =
      stC pre s os ind k (vs ++ [[]]) from rfl, hC _ _ _ _ _ _ _ hn ho]
    constructor
    · rintro ⟨vs', mid, os', rest, d, h1, h2, h3, h4, rfl⟩
      exact ⟨[] :: vs', mid, os', rest, d, .blank hb h1, h2, h3, h4, by simp⟩
    · rintro ⟨vs', mid, os', rest, d, h1, h2, h3, h4, rfl⟩
      cases h1 with
      | done h1 _ => exact absurd h1 (comment_not_content (Or.inr hb))
      | comment h1 _ => exact absurd h1 hc
      | blank _ h1 => exact ⟨_, mid, os', rest, d, h1, h2, h3, h4, by simp⟩
      | more h1 _ _ _ => exact absurd h1 (comment_not_content (Or.inr hb))
  have hl : Spec.Content p l := ⟨hc, hb⟩
  by_cases hi : 0 < Spec.indent l ∧ ind < Spec.indent l
  · have hline := line_content hu hl (stC pre s os ind k vs)
    rw [if_pos ⟨rfl, hi.1, hi.2⟩] at hline
    rw [show ({ stC pre s os ind k vs with val := some ((stC pre s os ind k vs).val.getD [] ++ [trimSpace l]) } : CfgState) =
      stC pre s os ind k (vs ++ [trimSpace l]) from rfl] at hline
    rw [finish_ok hline, hC _ _ _ _ _ _ _ hn ho]
    constructor
    · rintro ⟨vs', mid, os', rest, d, h1, h2, h3, h4, rfl⟩
      exact ⟨trimSpace l :: vs', mid, os', rest, d, .more hl hi.1 hi.2 h1, h2, h3, h4, by simp⟩
    · rintro ⟨vs', mid, os', rest, d, h1, h2, h3, h4, rfl⟩
      cases h1 with
      | done _ h1 => exfalso; omega
      | comment h1 _ => exact absurd h1 hc
      | blank h1 _ => exact absurd h1 hb
      | more _ _ _ h1 => exact ⟨_, mid, os', rest, d, h1, h2, h3, h4, by simp⟩
  · have hi' : Spec.indent l = 0 ∨ Spec.indent l ≤ ind := by omega
    have hline := line_C_done hu hl hs (vs := vs) hk hi'
    have e : finish p (stC pre s os ind k vs) (l :: ls) = finish p (stB pre s (os ++ [(k, Spec.value vs)]) ind []) (l :: ls) := by
      unfold finish
      rw [cfgLines, cfgLines, hline]
    rw [e, hB _ _ _ _ _ _ hn (by simpa using ho)]
    constructor
    · rintro ⟨os', rest, d, h1, h2, h3, rfl⟩
      exact ⟨[], l :: ls, os', rest, d, .done hl hi', h1, h2, by simpa using h3, by simp [stored]⟩
    · rintro ⟨vs', mid, os', rest, d, h1, h2, h3, h4, rfl⟩
      cases h1 with
      | done _ h1 => exact ⟨os', rest, d, h2, h3, by simpa using h4, by simp [stored]⟩
      | comment h1 _ => exact absurd h1 hc
      | blank h1 _ => exact absurd h1 hb
      | more _ h1 h2 _ => exfalso; omega

theorem run_both (hu : Spec.Usual p) (ls : List Str) : RunB p ls ∧ RunC p ls := by
  induction ls with
  | nil => exact ⟨runB_nil, runC_nil⟩
  | cons l ls ih =>
    have hB := runB_cons hu (l := l) ih.1 ih.2
    exact ⟨hB, runC_cons hu hB ih.2⟩

/-- a run from the start -/
theorem run_A (hu : Spec.Usual p) (ls : List Str) (cfg : Config) :
    finish p ⟨[], 0, none, [], none⟩ ls = .ok cfg ↔ ∃ d, Spec.Document p ls d ∧ Spec.Distinct d ∧ cfg = Spec.toConfig d := by
  induction ls with
  | nil =>
    rw [finish_nil]
    constructor
    · intro h
      cases h
      exact ⟨[], .eof, ⟨by simp, by simp⟩, rfl⟩
    · rintro ⟨d, h1, _, rfl⟩
      cases h1
      rfl
  | cons l ls ih =>
    by_cases hc : Spec.Comment p l
    · rw [finish_ok (line_comment hu hc _), ih]
      simp only [document_skip (Or.inl hc)]
    by_cases hb : Spec.Blank l
    · rw [finish_ok (line_blank hu hb hc _)]
      simp only [Option.map_none, document_skip (Or.inr hb)]
      exact ih
    have hl : Spec.Content p l := ⟨hc, hb⟩
    have hline := line_content hu hl ⟨[], 0, none, [], none⟩
    rw [if_neg (by rintro ⟨h1, _⟩; cases h1)] at hline
    by_cases hh : (hasPrefix (trimSpace l) ['['] && hasSuffix (trimSpace l) [']']) = true
    · rw [if_pos hh] at hline
      obtain ⟨n, hn'⟩ := (header_iff _).mp hh
      have hd : Spec.SectionHeader l n := hn'
      have : sectionLine p ⟨[], 0, none, [], none⟩ (Spec.indent l) (trimSpace l) = .ok (stB [] n [] (Spec.indent l) []) := by
        rw [hn']
        unfold sectionLine
        rw [header_name]
        rfl
      rw [this] at hline
      rw [finish_ok hline, (run_both hu ls).1 _ _ _ _ _ _ (by simp) (by simp)]
      constructor
      · rintro ⟨os', rest, d, h1, ⟨h2, h3, h4⟩, h5, rfl⟩
        refine ⟨(n, os') :: d, .sect hl hd h1 h2, ⟨by simpa using h3, ?_⟩, by simp [Spec.toConfig, stored]⟩
        intro e he
        rcases List.mem_cons.mp he with rfl | he
        · simpa using h5
        · exact h4 e he
      · rintro ⟨d, h1, ⟨h2, h3⟩, rfl⟩
        obtain ⟨os', rest, d', h4, h5, rfl⟩ := (document_header hl hd).mp h1
        exact ⟨os', rest, d', h4, ⟨h5, by simpa using h2, fun e he => h3 e (by simp [he])⟩, by simpa using h3 (n, os') (by simp),
          by simp [Spec.toConfig, stored]⟩
    · rw [if_neg hh] at hline
      have : optionLine p ⟨[], 0, none, [], none⟩ (Spec.indent l) (trimSpace l) = .error () := rfl
      rw [this] at hline
      rw [finish_error hline]
      refine ⟨fun h => (nomatch h), ?_⟩
      rintro ⟨d, h1, _⟩
      exfalso
      cases h1 with
      | skip h1 _ => exact comment_not_content h1 hl
      | sect _ h1 _ _ => exact hh ((header_iff _).mpr ⟨_, h1⟩)

end Python
