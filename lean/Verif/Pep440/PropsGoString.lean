import Verif.Pep440.GoString
import Verif.Pep440.GoStringSpec
import Verif.Go.Lemmas
/-! C145: what `%#v` prints for a version is a Go expression for that version, and for no other. -/
namespace Pep440
open Go GoExpr

/-! ### what is printed is an expression for the value -/

theorem decimal_itoaNat (n : Nat) : Decimal (itoaNat n) n := by
  refine ⟨itoaNat_ne_nil n, itoaNat_all n, ?_, (digitsVal_itoaNat n).symm⟩
  induction n using itoaNat.induct with
  | case1 n h =>
    rw [itoaNat, if_pos h]; intro hh; simpa using hh
  | case2 n h ih =>
    rw [itoaNat, if_neg h]; intro hh
    have : (itoaNat (n / 10)).head? = some '0' := by
      cases e : itoaNat (n / 10) with
      | nil => exact absurd e (itoaNat_ne_nil _)
      | cons c t => rw [e] at hh; simpa using hh
    have e := ih this
    have := digitsVal_itoaNat (n / 10)
    rw [e] at this
    have h0 : digitsVal ['0'] = 0 := by decide
    omega

theorem intText_itoa (n : Int) : IntText (itoa n) n := by
  unfold itoa
  split
  · exact .inr ⟨_, _, rfl, decimal_itoaNat _, by omega⟩
  · exact .inl ⟨_, decimal_itoaNat _, by omega⟩

theorem hexVal_hexChar {n : Nat} (h : n < 16) : hexVal (hexChar n) = some n := by
  have : ∀ n : Fin 16, hexVal (hexChar n.1) = some n.1 := by decide
  exact this ⟨n, h⟩

theorem HexVal_snoc : ∀ (s : Str) (a n d : Nat) (c : Char), HexVal s a n → hexVal c = some d → HexVal (s ++ [c]) a (n * 16 + d) := by
  intro s
  induction s with
  | nil => intro a n d c h hc; cases h; exact ⟨d, hc, rfl⟩
  | cons x s ih =>
    intro a n d c h hc
    obtain ⟨e, he, h⟩ := h
    exact ⟨e, he, ih _ _ _ _ h hc⟩

theorem HexVal_hexDigits : ∀ (k n : Nat), n < 16 ^ k → HexVal (hexDigits k n) 0 n := by
  intro k
  induction k with
  | zero => intro n h; simp at h; subst h; rfl
  | succ k ih =>
    intro n h
    have h2 := ih (n / 16) (by rw [Nat.div_lt_iff_lt_mul (by decide)]; rw [Nat.pow_succ] at h; exact h)
    have h3 := HexVal_snoc _ _ _ (n % 16) (hexChar (n % 16)) h2 (hexVal_hexChar (Nat.mod_lt _ (by decide)))
    rw [show n / 16 * 16 + n % 16 = n by omega] at h3
    exact h3

theorem hexDigits_length : ∀ (k n : Nat), (hexDigits k n).length = k := by
  intro k
  induction k with
  | zero => intro n; rfl
  | succ k ih => intro n; simp [hexDigits, ih]

theorem inside_escape (isPrint : Char → Bool) (c : Char) {s v : Str} (h : Inside s v) :
    Inside (escapeRune isPrint c ++ s) (c :: v) := by
  unfold escapeRune
  split
  · next hc =>
    refine .simple ?_ h
    rcases hc with rfl | rfl <;> decide
  next hq =>
  rw [not_or] at hq
  split
  · next hp =>
    refine .plain hq.1 hq.2 ?_ h
    rintro rfl
    revert hp; unfold printable; simp
  repeat' split
  all_goals first
    | (refine .simple ?_ h; first | (subst_vars; decide) | (simp only [*]; decide))
    | skip
  · next hx =>
    exact .hex (k := 2) (by decide) (hexDigits_length _ _) (HexVal_hexDigits _ _ (by omega)) (fun _ => by omega) h
  · exact .hex (k := 4) (by decide) (hexDigits_length _ _) (HexVal_hexDigits _ _ (by omega)) (fun e => absurd e (by decide)) h
  · have hc : c.toNat < 16 ^ 8 := c.val.toNat_lt
    exact .hex (k := 8) (by decide) (hexDigits_length _ _) (HexVal_hexDigits _ _ hc) (fun e => absurd e (by decide)) h

theorem strText_quoteGo (isPrint : Char → Bool) (s : Str) : StrText (quoteGo isPrint s) s := by
  refine ⟨_, rfl, ?_⟩
  induction s with
  | nil => exact .nil
  | cons c s ih => exact inside_escape isPrint c ih

theorem goElems_cons (x : Str) (xs : List Str) : goElems (x :: xs) = x ++ xs.flatMap (fun y => ", ".toList ++ y) := rfl

theorem goElems_eq (l : List Str) : goElems l = ", ".toList.intercalate l := by
  cases l with
  | nil => rfl
  | cons x xs =>
    induction xs generalizing x with
    | nil => rw [goElems_cons]; simp [List.intercalate]
    | cons y ys ih =>
      rw [goElems_cons, List.flatMap_cons, List.append_assoc, ← goElems_cons, ih y]
      simp only [List.intercalate, List.intersperse, List.flatten_cons]

theorem each_map {α : Type} {T : Str → α → Prop} {f : α → Str} (h : ∀ x, T (f x) x) (l : List α) : Each T (l.map f) l := by
  induction l with
  | nil => trivial
  | cons x xs ih => exact ⟨h x, ih⟩

theorem sliceText_goSlice {α : Type} {T : Str → α → Prop} {f : α → Str} (ty : String) (h : ∀ x, T (f x) x) (l : List α) :
    SliceText ty T (goSlice ty (l.map f)) l := by
  unfold goSlice
  cases l with
  | nil => exact .inl ⟨rfl, rfl⟩
  | cons x xs =>
    rw [if_neg (by simp)]
    exact .inr ⟨_, each_map h _, by rw [goElems_eq]⟩

theorem lit_pre : "pep440.PreRelease{L:".toList = ("pep440.PreRelease".toList ++ ("{".toList ++ ("L".toList ++ ":".toList))) := by decide +kernel
theorem lit_n : ", N:".toList = (", ".toList ++ ("N".toList ++ ":".toList)) := by decide +kernel
theorem lit_seg : "intstr.IntOrString{Type:".toList = ("intstr.IntOrString".toList ++ ("{".toList ++ ("Type".toList ++ ":".toList))) := by decide +kernel
theorem lit_intval : ", IntVal:".toList = (", ".toList ++ ("IntVal".toList ++ ":".toList)) := by decide +kernel
theorem lit_strval : ", StrVal:".toList = (", ".toList ++ ("StrVal".toList ++ ":".toList)) := by decide +kernel
theorem lit_pub : "pep440.PublicVersion{Epoch:".toList = ("pep440.PublicVersion".toList ++ ("{".toList ++ ("Epoch".toList ++ ":".toList))) := by decide +kernel
theorem lit_frelease : ", Release:".toList = (", ".toList ++ ("Release".toList ++ ":".toList)) := by decide +kernel
theorem lit_fpre : ", Pre:".toList = (", ".toList ++ ("Pre".toList ++ ":".toList)) := by decide +kernel
theorem lit_fpost : ", Post:".toList = (", ".toList ++ ("Post".toList ++ ":".toList)) := by decide +kernel
theorem lit_fdev : ", Dev:".toList = (", ".toList ++ ("Dev".toList ++ ":".toList)) := by decide +kernel
theorem lit_flocal : ", Local:".toList = (", ".toList ++ ("Local".toList ++ ":".toList)) := by decide +kernel
theorem lit_ver : "pep440.LocalVersion{PublicVersion:".toList = ("pep440.LocalVersion".toList ++ ("{".toList ++ ("PublicVersion".toList ++ ":".toList))) := by decide +kernel

theorem preText_goPre (isPrint : Char → Bool) (p : Str × Int) : PreText (goPre isPrint p) p := by
  refine ⟨_, _, strText_quoteGo isPrint p.1, intText_itoa p.2, ?_⟩
  unfold goPre structText
  rw [lit_pre, lit_n]
  simp only [List.map_cons, List.map_nil, List.intercalate, List.intersperse, List.flatten_cons, List.flatten_nil, List.append_nil]
  simp only [List.append_assoc]

theorem segText_goSeg (isPrint : Char → Bool) (s : Seg) : SegText (goSeg isPrint s) s := by
  cases s with
  | int n =>
    refine ⟨_, _, _, 0, n, [], intText_itoa 0, intText_itoa n, strText_quoteGo isPrint [], ?_, rfl, rfl, rfl⟩
    unfold goSeg structText
    rw [lit_seg, lit_intval, lit_strval]
    simp only [List.map_cons, List.map_nil, List.intercalate, List.intersperse, List.flatten_cons, List.flatten_nil, List.append_nil]
    simp only [List.append_assoc]
  | str v =>
    refine ⟨_, _, _, 1, 0, v, intText_itoa 1, intText_itoa 0, strText_quoteGo isPrint v, ?_, rfl, rfl, rfl⟩
    unfold goSeg structText
    rw [lit_seg, lit_intval, lit_strval]
    simp only [List.map_cons, List.map_nil, List.intercalate, List.intersperse, List.flatten_cons, List.flatten_nil, List.append_nil]
    simp only [List.append_assoc]

/-- **C145** (public versions): what `%#v` prints is a Go expression for the version. -/
theorem C145_public_reads (isPrint : Char → Bool) (v : PubVer) : PubText (v.goString isPrint) v := by
  obtain ⟨e, r, p, o, d⟩ := v
  refine ⟨itoa e, _, (match p with | some p => "&".toList ++ goPre isPrint p | none => "nil".toList),
    (match o with | some n => "intPtr(".toList ++ itoa n ++ ")".toList | none => "nil".toList),
    (match d with | some n => "intPtr(".toList ++ itoa n ++ ")".toList | none => "nil".toList),
    intText_itoa e, sliceText_goSlice "int" intText_itoa r, ?_, ?_, ?_, ?_⟩
  · cases p with
    | none => rfl
    | some p => exact ⟨_, preText_goPre isPrint p, by simp⟩
  · cases o with
    | none => rfl
    | some n => exact ⟨_, intText_itoa n, rfl⟩
  · cases d with
    | none => rfl
    | some n => exact ⟨_, intText_itoa n, rfl⟩
  · cases p <;> cases o <;> cases d <;> (
    unfold PubVer.goString structText
    rw [lit_pub, lit_frelease, lit_fpre, lit_fpost, lit_fdev]
    simp only [List.map_cons, List.map_nil, List.intercalate, List.intersperse, List.flatten_cons, List.flatten_nil, List.append_nil]
    simp only [List.append_assoc])

/-- **C145**: what `%#v` prints is a Go expression for the version. -/
theorem C145_reads (isPrint : Char → Bool) (v : Ver) : VerText (v.goString isPrint) v := by
  refine ⟨_, _, C145_public_reads isPrint v.toPubVer, sliceText_goSlice _ (segText_goSeg isPrint) v.loc, ?_⟩
  unfold Ver.goString structText
  rw [lit_ver, lit_flocal]
  simp only [List.map_cons, List.map_nil, List.intercalate, List.intersperse, List.flatten_cons, List.flatten_nil, List.append_nil]
  simp only [List.append_assoc]

/-! ### an expression stands for one value only -/

/-- what may follow a number -/
def Stop (r : Str) : Prop := ∃ c t, r = c :: t ∧ isDig c = false

/-- texts that can be told from what follows them, and stand for one value -/
def Unique {α : Type} (T : Str → α → Prop) : Prop :=
  ∀ s x s' x' r r', T s x → T s' x' → Stop r → Stop r' → s ++ r = s' ++ r' → x = x' ∧ r = r'

theorem digits_unique : ∀ (s s' r r' : Str), s.all isDig = true → s'.all isDig = true → Stop r → Stop r' → s ++ r = s' ++ r' →
    s = s' ∧ r = r' := by
  intro s
  induction s with
  | nil =>
    rintro s' r r' _ h' ⟨c, t, rfl, hc⟩ _ e
    cases s' with
    | nil => exact ⟨rfl, e⟩
    | cons x xs => simp at e h'; rw [← e.1] at h'; simp [hc] at h'
  | cons y ys ih =>
    rintro s' r r' h h' hr hr' e
    cases s' with
    | nil =>
      obtain ⟨c, t, rfl, hc⟩ := hr'
      simp at e h; rw [e.1] at h; simp [hc] at h
    | cons x xs =>
      simp at e h h'
      obtain ⟨h1, h2⟩ := ih xs r r' (by simpa using h.2) (by simpa using h'.2) hr hr' e.2
      exact ⟨by rw [e.1, h1], h2⟩

theorem intText_unique : Unique IntText := by
  rintro s x s' x' r r' (⟨k, ⟨h0, h1, _, h3⟩, rfl⟩ | ⟨d, k, rfl, ⟨h0, h1, _, h3⟩, rfl⟩)
    (⟨k', ⟨g0, g1, _, g3⟩, rfl⟩ | ⟨d', k', rfl, ⟨g0, g1, _, g3⟩, rfl⟩) hr hr' e
  · obtain ⟨a, b⟩ := digits_unique _ _ _ _ h1 g1 hr hr' e
    exact ⟨by rw [h3, g3, a], b⟩
  · cases s with
    | nil => exact absurd rfl h0
    | cons c t => simp at e h1; rw [e.1] at h1; exact absurd h1.1 (by decide)
  · cases s' with
    | nil => exact absurd rfl g0
    | cons c t => simp at e g1; rw [← e.1] at g1; exact absurd g1.1 (by decide)
  · simp at e
    obtain ⟨a, b⟩ := digits_unique _ _ _ _ h1 g1 hr hr' e
    exact ⟨by rw [h3, g3, a], b⟩

theorem HexVal_fun : ∀ (s : Str) (a n m : Nat), HexVal s a n → HexVal s a m → n = m := by
  intro s
  induction s with
  | nil => intro a n m h g; exact h.symm.trans g
  | cons c s ih =>
    rintro a n m ⟨d, hd, h⟩ ⟨e, he, g⟩
    rw [hd] at he; cases he
    exact ih _ _ _ h g

theorem char_ext {c d : Char} (h : c.toNat = d.toNat) : c = d := by
  rw [← Char.ofNat_toNat c, ← Char.ofNat_toNat d, h]

theorem simple_fun : ∀ p ∈ simpleEscapes, ∀ q ∈ simpleEscapes, p.1 = q.1 → p.2 = q.2 := by decide
theorem simple_hex : ∀ p ∈ simpleEscapes, ∀ q ∈ [('x', 2), ('u', 4), ('U', 8)], p.1 ≠ q.1 := by decide
theorem hex_fun : ∀ p ∈ [('x', 2), ('u', 4), ('U', 8)], ∀ q ∈ [('x', 2), ('u', 4), ('U', 8)], p.1 = q.1 → p.2 = q.2 := by decide

theorem inside_unique {s v : Str} (h : Inside s v) : ∀ {s' v' r r' : Str}, Inside s' v' → s ++ '"' :: r = s' ++ '"' :: r' →
    v = v' ∧ r = r' := by
  induction h with
  | nil =>
    intro s' v' r r' g e
    cases g with
    | nil => simp at e; exact ⟨rfl, e⟩
    | plain h1 => simp at e; exact absurd e.1.symm h1
    | simple => simp at e
    | hex => simp at e
  | plain h1 h2 h3 _ ih =>
    intro s' v' r r' g e
    cases g with
    | nil => simp at e; exact absurd e.1 h1
    | plain g1 g2 g3 g =>
      simp at e
      obtain ⟨a, b⟩ := ih g e.2
      exact ⟨by rw [e.1, a], b⟩
    | simple => simp at e; exact absurd e.1 h2
    | hex => simp at e; exact absurd e.1 h2
  | @simple x c s v h1 _ ih =>
    intro s' v' r r' g e
    cases g with
    | nil => simp at e
    | plain g1 g2 => simp at e; exact absurd e.1.symm g2
    | @simple x' c' _ _ g1 g =>
      simp at e
      obtain ⟨a, b⟩ := ih g e.2
      refine ⟨?_, b⟩
      rw [a, char_ext (c := c) (d := c')]
      exact simple_fun _ h1 _ g1 e.1
    | @hex x' k d c' _ _ g1 =>
      simp at e
      exact absurd e.1 (simple_hex _ h1 _ g1)
  | @hex x k d c s v h1 h2 h3 h4 _ ih =>
    intro s' v' r r' g e
    cases g with
    | nil => simp at e
    | plain g1 g2 => simp at e; exact absurd e.1.symm g2
    | @simple x' c' _ _ g1 g =>
      simp at e
      exact absurd e.1.symm (simple_hex _ g1 _ h1)
    | @hex x' k' d' c' s' v' g1 g2 g3 g4 g =>
      simp at e
      have hk : k = k' := hex_fun _ h1 _ g1 e.1
      obtain ⟨rfl, e2⟩ := List.append_inj e.2 (by omega)
      obtain ⟨a, b⟩ := ih g e2
      exact ⟨by rw [a, char_ext (HexVal_fun _ _ _ _ h3 g3)], b⟩

theorem strText_unique : Unique StrText := by
  rintro s x s' x' r r' ⟨a, rfl, ha⟩ ⟨b, rfl, hb⟩ _ _ e
  simp at e
  exact inside_unique ha hb e

/-- the same text in front -/
theorem peel {p a b : Str} (h : p ++ a = p ++ b) : a = b := List.append_cancel_left h

theorem each_unique {α : Type} {T : Str → α → Prop} (hT : Unique T) : ∀ (ts : List Str) (l : List α) (ts' : List Str) (l' : List α)
    (r r' : Str), Each T ts l → Each T ts' l' →
    ts.flatMap (fun y => ", ".toList ++ y) ++ '}' :: r = ts'.flatMap (fun y => ", ".toList ++ y) ++ '}' :: r' → l = l' ∧ r = r' := by
  intro ts
  induction ts with
  | nil =>
    intro l ts' l' r r' h h' e
    cases l with
    | cons => exact h.elim
    | nil =>
    cases ts' with
    | cons => simp at e
    | nil =>
    cases l' with
    | cons => exact h'.elim
    | nil => simp at e; exact ⟨rfl, e⟩
  | cons t ts ih =>
    intro l ts' l' r r' h h' e
    cases l with
    | nil => exact h.elim
    | cons x xs =>
    cases ts' with
    | nil => simp at e
    | cons t' ts' =>
    cases l' with
    | nil => exact h'.elim
    | cons x' xs' =>
    simp only [List.flatMap_cons, List.append_assoc] at e
    have e := peel e
    have st : ∀ (us : List Str) (q : Str), Stop (us.flatMap (fun y => ", ".toList ++ y) ++ '}' :: q) := by
      intro us q
      cases us with
      | nil => exact ⟨'}', q, rfl, by decide⟩
      | cons u us => exact ⟨',', _, rfl, by decide⟩
    obtain ⟨rfl, e⟩ := hT _ _ _ _ _ _ h.1 h'.1 (st _ _) (st _ _) e
    obtain ⟨rfl, e⟩ := ih _ _ _ _ _ h.2 h'.2 e
    exact ⟨rfl, e⟩

/-- texts that do not start with `}` -/
def NoBrace {α : Type} (T : Str → α → Prop) : Prop := ∀ s x, T s x → ∀ t, s ≠ '}' :: t ∧ s ≠ []

theorem slice_unique {α : Type} {T : Str → α → Prop} (ty : String) (hT : Unique T) (hB : NoBrace T) : Unique (SliceText ty T) := by
  rintro s x s' x' r r' (⟨rfl, rfl⟩ | ⟨ts, h, rfl⟩) (⟨rfl, rfl⟩ | ⟨ts', h', rfl⟩) _ _ e
  · exact ⟨rfl, peel e⟩
  · simp only [List.append_assoc] at e
    have e := peel (peel e)
    simp at e
  · simp only [List.append_assoc] at e
    have e := peel (peel e)
    simp at e
  · simp only [List.append_assoc] at e
    have e := peel (peel (peel e))
    rw [← goElems_eq, ← goElems_eq] at e
    have nb : ∀ (t : Str) (y : α) (q q' : Str), T t y → '}' :: q ≠ t ++ q' := by
      intro t y q q' ht he
      cases t with
      | nil => exact (hB _ _ ht []).2 rfl
      | cons c t => simp at he; exact (hB _ _ ht t).1 (by rw [← he.1])
    cases ts with
    | nil =>
      cases x with
      | cons => exact h.elim
      | nil =>
      cases ts' with
      | nil =>
        cases x' with
        | cons => exact h'.elim
        | nil => exact ⟨rfl, by simpa [goElems] using e⟩
      | cons t' ts' =>
        cases x' with
        | nil => exact h'.elim
        | cons y ys => exact absurd (by simpa [goElems] using e) (nb _ _ r _ h'.1)
    | cons t ts =>
      cases x with
      | nil => exact h.elim
      | cons z zs =>
      cases ts' with
      | nil =>
        cases x' with
        | cons => exact h'.elim
        | nil => exact absurd (by simpa [goElems] using e.symm) (nb _ _ r' _ h.1)
      | cons t' ts' =>
        cases x' with
        | nil => exact h'.elim
        | cons y ys =>
          have e : (t :: ts).flatMap (fun y => ", ".toList ++ y) ++ '}' :: r = (t' :: ts').flatMap (fun y => ", ".toList ++ y) ++ '}' :: r' := by
            simp only [goElems, List.append_assoc] at e
            simp only [List.flatMap_cons, List.append_assoc]
            exact congrArg (", ".toList ++ ·) e
          exact each_unique hT _ _ _ _ _ _ h h' e

theorem ptr_unique {α : Type} {T : Str → α → Prop} (before after : String) (hT : Unique T)
    (hb : before.toList.head? ≠ some 'n' ∧ before.toList ≠ []) (ha : ∀ r, Stop r → Stop (after.toList ++ r)) :
    Unique (PtrText before after T) := by
  have nn : ∀ q q' : Str, "nil".toList ++ q ≠ before.toList ++ q' := by
    intro q q' e
    cases hbe : before.toList with
    | nil => exact hb.2 hbe
    | cons c t => rw [hbe] at e; simp at e; rw [hbe] at hb; simp [← e.1] at hb
  intro s x s' x' r r' h h' hr hr' e
  cases x with
  | none =>
    cases x' with
    | none => rw [show s = _ from h, show s' = _ from h'] at e; exact ⟨rfl, peel e⟩
    | some y =>
      obtain ⟨u, _, rfl⟩ := h'
      rw [show s = _ from h] at e
      simp only [List.append_assoc] at e
      exact absurd e (nn _ _)
  | some x =>
    obtain ⟨u, hu, rfl⟩ := h
    cases x' with
    | none =>
      rw [show s' = _ from h'] at e
      simp only [List.append_assoc] at e
      exact absurd e.symm (nn _ _)
    | some y =>
      obtain ⟨w, hw, rfl⟩ := h'
      simp only [List.append_assoc] at e
      obtain ⟨rfl, e⟩ := hT _ _ _ _ _ _ hu hw (ha _ hr) (ha _ hr') (peel e)
      exact ⟨rfl, peel e⟩

theorem stop_comma (s : Str) : Stop (", ".toList ++ s) := ⟨',', _, rfl, by decide⟩
theorem stop_brace (s : Str) : Stop ("}".toList ++ s) := ⟨'}', _, rfl, by decide⟩

theorem preText_unique : Unique PreText := by
  rintro s ⟨l, n⟩ s' ⟨l', n'⟩ r r' ⟨a, b, ha, hb, rfl⟩ ⟨a', b', ha', hb', rfl⟩ hr hr' e
  simp only [structText, List.map_cons, List.map_nil, List.intercalate, List.intersperse, List.flatten_cons, List.flatten_nil,
    List.append_assoc, List.nil_append] at e
  obtain ⟨e1, e⟩ := strText_unique _ _ _ _ _ _ ha ha' (stop_comma _) (stop_comma _) (peel (peel (peel (peel e))))
  obtain ⟨e2, e⟩ := intText_unique _ _ _ _ _ _ hb hb' (stop_brace _) (stop_brace _) (peel (peel (peel e)))
  simp only at e1 e2
  exact ⟨by rw [e1, e2], peel e⟩

theorem segText_unique : Unique SegText := by
  rintro s x s' x' r r' ⟨a, b, c, ty, n, v, ha, hb, hc, rfl, hx⟩ ⟨a', b', c', ty', n', v', ha', hb', hc', rfl, hx'⟩ hr hr' e
  simp only [structText, List.map_cons, List.map_nil, List.intercalate, List.intersperse, List.flatten_cons, List.flatten_nil,
    List.append_assoc, List.nil_append] at e
  obtain ⟨e1, e⟩ := intText_unique _ _ _ _ _ _ ha ha' (stop_comma _) (stop_comma _) (peel (peel (peel (peel e))))
  obtain ⟨e2, e⟩ := intText_unique _ _ _ _ _ _ hb hb' (stop_comma _) (stop_comma _) (peel (peel (peel e)))
  obtain ⟨e3, e⟩ := strText_unique _ _ _ _ _ _ hc hc' (stop_brace _) (stop_brace _) (peel (peel (peel e)))
  refine ⟨?_, peel e⟩
  cases x <;> cases x' <;> simp only at hx hx' <;> grind

theorem noBrace_int : NoBrace IntText := by
  rintro s x (⟨k, ⟨h0, h1, _, _⟩, _⟩ | ⟨d, k, rfl, _, _⟩) t
  · refine ⟨?_, h0⟩
    rintro rfl
    simp at h1
    exact absurd h1.1 (by decide)
  · simp

theorem noBrace_seg : NoBrace SegText := by
  rintro s x ⟨a, b, c, ty, n, v, ha, hb, hc, rfl, hx⟩ t
  simp [structText]

theorem pubText_unique : Unique PubText := by
  rintro s ⟨_, _, _, _, _⟩ s' ⟨_, _, _, _, _⟩ r r' ⟨a, b, c, d, f, ha, hb, hc, hd, hf, rfl⟩ ⟨a', b', c', d', f', ha', hb', hc', hd', hf', rfl⟩ hr hr' e
  simp only [structText, List.map_cons, List.map_nil, List.intercalate, List.intersperse, List.flatten_cons, List.flatten_nil,
    List.append_assoc, List.nil_append] at e
  have hp : Unique (PtrText "intPtr(" ")" IntText) := ptr_unique _ _ intText_unique (by decide) (fun r _ => ⟨')', r, rfl, by decide⟩)
  have hq : Unique (PtrText "&" "" PreText) := ptr_unique _ _ preText_unique (by decide) (fun r h => h)
  obtain ⟨e1, e⟩ := intText_unique _ _ _ _ _ _ ha ha' (stop_comma _) (stop_comma _) (peel (peel (peel (peel e))))
  obtain ⟨e2, e⟩ := slice_unique "int" intText_unique noBrace_int _ _ _ _ _ _ hb hb' (stop_comma _) (stop_comma _) (peel (peel (peel e)))
  obtain ⟨e3, e⟩ := hq _ _ _ _ _ _ hc hc' (stop_comma _) (stop_comma _) (peel (peel (peel e)))
  obtain ⟨e4, e⟩ := hp _ _ _ _ _ _ hd hd' (stop_comma _) (stop_comma _) (peel (peel (peel e)))
  obtain ⟨e5, e⟩ := hp _ _ _ _ _ _ hf hf' (stop_brace _) (stop_brace _) (peel (peel (peel e)))
  simp only at e1 e2 e3 e4 e5
  exact ⟨by rw [e1, e2, e3, e4, e5], peel e⟩

theorem verText_unique : Unique VerText := by
  rintro s ⟨_, _⟩ s' ⟨_, _⟩ r r' ⟨a, b, ha, hb, rfl⟩ ⟨a', b', ha', hb', rfl⟩ hr hr' e
  simp only [structText, List.map_cons, List.map_nil, List.intercalate, List.intersperse, List.flatten_cons, List.flatten_nil,
    List.append_assoc, List.nil_append] at e
  obtain ⟨e1, e⟩ := pubText_unique _ _ _ _ _ _ ha ha' (stop_comma _) (stop_comma _) (peel (peel (peel (peel e))))
  obtain ⟨e2, e⟩ := slice_unique _ segText_unique noBrace_seg _ _ _ _ _ _ hb hb' (stop_brace _) (stop_brace _) (peel (peel (peel e)))
  simp only at e1 e2
  exact ⟨by rw [e1, e2], peel e⟩

/-- **C145**: a text is a Go expression for one version at most. -/
theorem C145_unique {t : Str} {v w : Ver} (hv : VerText t v) (hw : VerText t w) : v = w :=
  (verText_unique _ _ _ _ ['}'] ['}'] hv hw (stop_brace []) (stop_brace []) rfl).1

/-- **C145**: versions printed with `%#v` look the same only if they are the same. -/
theorem C145_iff (isPrint : Char → Bool) (v w : Ver) : v.goString isPrint = w.goString isPrint ↔ v = w := by
  constructor
  · intro h
    have hw := C145_reads isPrint w
    rw [← h] at hw
    exact C145_unique (C145_reads isPrint v) hw
  · intro h; rw [h]

/-- **C145** (public versions) -/
theorem C145_public_iff (isPrint : Char → Bool) (v w : PubVer) : v.goString isPrint = w.goString isPrint ↔ v = w := by
  constructor
  · intro h
    have hw := C145_public_reads isPrint w
    rw [← h] at hw
    exact (pubText_unique _ _ _ _ ['}'] ['}'] (C145_public_reads isPrint v) hw (stop_brace []) (stop_brace []) rfl).1
  · intro h; rw [h]

/-- a version with everything in it, and a local label with a quote and a character outside ASCII that is not printable -/
example : Ver.goString (fun _ => false)
    { epoch := 1, release := [2, 10], pre := some ("rc".toList, 3), post := some 4, dev := none, loc := [.int 5, .str "a\"\u0085".toList] } =
    ("pep440.LocalVersion{PublicVersion:pep440.PublicVersion{Epoch:1, Release:[]int{2, 10}, Pre:&pep440.PreRelease{L:\"rc\", N:3}, " ++
     "Post:intPtr(4), Dev:nil}, Local:[]intstr.IntOrString{intstr.IntOrString{Type:0, IntVal:5, StrVal:\"\"}, " ++
     "intstr.IntOrString{Type:1, IntVal:0, StrVal:\"a\\\"\\u0085\"}}}").toList := by decide +kernel

/-- the number 1 and the string `1` as local labels are printed the same by `String`, but not by `%#v` -/
example : Ver.string { epoch := 0, release := [1], pre := none, post := none, dev := none, loc := [.int 1] } =
      Ver.string { epoch := 0, release := [1], pre := none, post := none, dev := none, loc := [.str "1".toList] } ∧
    Ver.goString (fun _ => true) { epoch := 0, release := [1], pre := none, post := none, dev := none, loc := [.int 1] } ≠
      Ver.goString (fun _ => true) { epoch := 0, release := [1], pre := none, post := none, dev := none, loc := [.str "1".toList] } := by
  decide +kernel

end Pep440
