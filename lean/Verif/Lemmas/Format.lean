import Verif.Spec.Format
import Verif.Lemmas.Utf8
import Verif.Lemmas.Position

namespace Tinymist.Format

open Tinymist.Position

theorem utf8Size_eq (c : Char) : c.utf8Size = Utf8.len8 c := by
  have hv : c.val.toNat = c.toNat := rfl
  have e1 : UInt32.toNat 0x7F = 0x7F := rfl
  have e2 : UInt32.toNat 0x7FF = 0x7FF := rfl
  have e3 : UInt32.toNat 0xFFFF = 0xFFFF := rfl
  unfold Char.utf8Size Utf8.len8
  simp only [UInt32.le_iff_toNat_le, hv]
  grind

theorem encode_length (s : Text) : (Utf8.encode s).length = len8 s := by
  induction s with
  | nil => rfl
  | cons c s ih =>
    rw [Utf8.encode_cons, List.length_append, ih, Utf8.encodeChar_length, len8_cons, utf8Size_eq]

/-! ## Common beginnings -/

theorem commonLen_append (p a b : List Nat) : commonLen (p ++ a) (p ++ b) = p.length + commonLen a b := by
  induction p with
  | nil => simp
  | cons x p ih => simp [commonLen, ih]; omega

theorem commonLen_le_left (a b : List Nat) : commonLen a b ≤ a.length := by
  induction a generalizing b with
  | nil => simp [commonLen]
  | cons x a ih =>
    cases b with
    | nil => simp [commonLen]
    | cons y b =>
      simp only [commonLen, List.length_cons]
      split
      · have := ih b; omega
      · omega

theorem commonLen_take (a b : List Nat) (k : Nat) (h : k ≤ commonLen a b) : a.take k = b.take k := by
  induction a generalizing b k with
  | nil =>
    simp [commonLen] at h; subst h; simp
  | cons x a ih =>
    cases b with
    | nil => simp [commonLen] at h; subst h; simp
    | cons y b =>
      simp only [commonLen] at h
      cases k with
      | zero => simp
      | succ k =>
        split at h
        · rename_i e; subst e
          simp [ih b k (by omega)]
        · omega

theorem commonLen_comm (a b : List Nat) : commonLen a b = commonLen b a := by
  induction a generalizing b with
  | nil => cases b <;> rfl
  | cons x a ih =>
    cases b with
    | nil => rfl
    | cons y b =>
      simp only [commonLen]
      by_cases e : x = y
      · subst e; simp [ih b]
      · rw [if_neg e, if_neg (fun h => e h.symm)]

/-- Different characters: the common beginning ends inside both. -/
theorem common_lt {c d : Char} (h : c ≠ d) (r r' : List Nat) :
    commonLen (Utf8.encodeChar c ++ r) (Utf8.encodeChar d ++ r') < (Utf8.encodeChar c).length := by
  rcases Nat.lt_or_ge (commonLen (Utf8.encodeChar c ++ r) (Utf8.encodeChar d ++ r'))
    (Utf8.encodeChar c).length with hlt | hge
  · exact hlt
  exfalso
  have ht := commonLen_take _ _ _ hge
  rw [List.take_left] at ht
  have e : Utf8.encodeChar d ++ r' = Utf8.encodeChar c ++ (Utf8.encodeChar d ++ r').drop (Utf8.encodeChar c).length := by
    conv => lhs; rw [← List.take_append_drop (Utf8.encodeChar c).length (Utf8.encodeChar d ++ r')]
    rw [← ht]
  have h1 := Utf8.decodeOne_encodeChar d r'
  rw [e, Utf8.decodeOne_encodeChar] at h1
  injection h1 with h1
  exact h (congrArg Prod.fst h1)

theorem common_lt' {c d : Char} (h : c ≠ d) (r r' : List Nat) :
    commonLen (Utf8.encodeChar c ++ r) (Utf8.encodeChar d ++ r') < (Utf8.encodeChar d).length := by
  rw [commonLen_comm]; exact common_lt (fun e => h e.symm) r' r

/-! ## Common ends -/

/-- The first byte of a character is not a continuation byte, the others are. -/
theorem encode_shape (c : Char) : ∃ b bs, Utf8.encodeChar c = b :: bs ∧ Utf8.isCont b = false ∧
    ∀ x ∈ bs, Utf8.isCont x = true := by
  have hv := Utf8.toNat_valid c
  unfold Utf8.encodeChar
  simp only
  split
  · refine ⟨_, _, rfl, ?_, by simp⟩
    simp [Utf8.isCont]; omega
  · split
    · refine ⟨_, _, rfl, ?_, ?_⟩
      · simp [Utf8.isCont] <;> omega
      · intro x hx; simp at hx; subst hx; simp [Utf8.isCont]; omega
    · split
      · refine ⟨_, _, rfl, ?_, ?_⟩
        · simp [Utf8.isCont]; omega
        · intro x hx; simp at hx; rcases hx with rfl | rfl <;> simp [Utf8.isCont] <;> omega
      · refine ⟨_, _, rfl, ?_, ?_⟩
        · simp [Utf8.isCont]; omega
        · intro x hx; simp at hx; rcases hx with rfl | rfl | rfl <;> simp [Utf8.isCont] <;> omega

theorem commonLen_get (a b : List Nat) (k : Nat) (h : k < commonLen a b) :
    ∃ x, a[k]? = some x ∧ b[k]? = some x := by
  have hl := commonLen_le_left a b
  have hl' := commonLen_le_left b a
  rw [commonLen_comm] at hl'
  have ht := commonLen_take a b (k + 1) (by omega)
  have h1 : (a.take (k + 1))[k]? = a[k]? := by simp
  have h2 : (b.take (k + 1))[k]? = b[k]? := by simp
  refine ⟨a[k]'(by omega), by simp, ?_⟩
  rw [← h2, ← ht, h1]; simp

theorem get_shape (b : Nat) (bs r : List Nat) : ((b :: bs).reverse ++ r)[bs.length]? = some b := by
  simp

theorem get_shape_cont (b : Nat) (bs r : List Nat) (k : Nat) (hk : k < bs.length) :
    ∃ x ∈ bs, ((b :: bs).reverse ++ r)[k]? = some x := by
  rw [List.getElem?_append_left (by simp; omega), List.reverse_cons,
    List.getElem?_append_left (by simpa using hk), List.getElem?_reverse hk]
  exact ⟨bs[bs.length - 1 - k]'(by omega), List.getElem_mem _, by simp⟩

/-- Different characters: the common end begins inside both. -/
theorem common_end_lt {c d : Char} (h : c ≠ d) (r r' : List Nat) :
    commonLen ((Utf8.encodeChar c).reverse ++ r) ((Utf8.encodeChar d).reverse ++ r') <
      (Utf8.encodeChar c).length := by
  obtain ⟨b, bs, hc, hb, hbs⟩ := encode_shape c
  obtain ⟨b', bs', hd, hb', hbs'⟩ := encode_shape d
  rw [hc, hd]
  rcases Nat.lt_or_ge (commonLen ((b :: bs).reverse ++ r) ((b' :: bs').reverse ++ r')) (b :: bs).length
    with hlt | hge
  · exact hlt
  exfalso
  simp only [List.length_cons] at hge
  rcases Nat.lt_trichotomy bs.length bs'.length with hl | hl | hl
  · obtain ⟨x, h1, h2⟩ := commonLen_get _ _ bs.length (Nat.lt_of_succ_le hge)
    rw [get_shape] at h1
    injection h1 with h1; subst h1
    obtain ⟨y, hy, h3⟩ := get_shape_cont b' bs' r' bs.length hl
    rw [h3] at h2
    injection h2 with h2; subst h2
    rw [hbs' y hy] at hb; cases hb
  · have ht := commonLen_take ((b :: bs).reverse ++ r) ((b' :: bs').reverse ++ r') (b :: bs).length hge
    have e1 : (b :: bs).length = (b :: bs).reverse.length := by simp
    have e2 : (b :: bs).length = (b' :: bs').reverse.length := by simp [hl]
    conv at ht => lhs; rw [e1, List.take_left]
    rw [e2, List.take_left] at ht
    have := List.reverse_inj.mp ht
    rw [← hc, ← hd] at this
    apply h
    have h1 := Utf8.decodeOne_encodeChar c []
    rw [this, Utf8.decodeOne_encodeChar] at h1
    injection h1 with h1
    exact (congrArg Prod.fst h1).symm
  · obtain ⟨x, h1, h2⟩ := commonLen_get ((b :: bs).reverse ++ r) ((b' :: bs').reverse ++ r') bs'.length (by omega)
    rw [get_shape] at h2
    injection h2 with h2; subst h2
    obtain ⟨y, hy, h3⟩ := get_shape_cont b bs r bs'.length hl
    rw [h3] at h1
    injection h1 with h1; subst h1
    rw [hbs y hy] at hb'; cases hb'

theorem common_end_lt' {c d : Char} (h : c ≠ d) (r r' : List Nat) :
    commonLen ((Utf8.encodeChar c).reverse ++ r) ((Utf8.encodeChar d).reverse ++ r') <
      (Utf8.encodeChar d).length := by
  rw [commonLen_comm]; exact common_end_lt (fun e => h e.symm) r' r

/-- The common end is not empty iff the last bytes are equal. -/
theorem common_end_pos (c d : Char) (r r' : List Nat) :
    0 < commonLen ((Utf8.encodeChar c).reverse ++ r) ((Utf8.encodeChar d).reverse ++ r') ↔
      (Utf8.encodeChar c).getLast? = (Utf8.encodeChar d).getLast? := by
  rw [← List.head?_reverse, ← List.head?_reverse]
  have h1 : (Utf8.encodeChar c).reverse ≠ [] := by simpa using Utf8.encodeChar_ne_nil c
  have h2 : (Utf8.encodeChar d).reverse ≠ [] := by simpa using Utf8.encodeChar_ne_nil d
  generalize (Utf8.encodeChar c).reverse = a at h1
  generalize (Utf8.encodeChar d).reverse = b at h2
  cases a with
  | nil => exact absurd rfl h1
  | cons x a =>
    cases b with
    | nil => exact absurd rfl h2
    | cons y b =>
      simp only [List.cons_append, commonLen, List.head?_cons, Option.some.injEq]
      by_cases e : x = y <;> simp [e]

/-! ## Splitting off what is common -/

/-- The common beginning of two texts. -/
theorem split_prefix (old new : Text) : ∃ p o n, old = p ++ o ∧ new = p ++ n ∧
    (o = [] ∨ n = [] ∨ o.head? ≠ n.head?) := by
  induction old generalizing new with
  | nil => exact ⟨[], [], new, rfl, rfl, .inl rfl⟩
  | cons c old ih =>
    cases new with
    | nil => exact ⟨[], c :: old, [], rfl, rfl, .inr (.inl rfl)⟩
    | cons d new =>
      by_cases e : c = d
      · subst e
        obtain ⟨p, o, n, rfl, rfl, h⟩ := ih new
        exact ⟨c :: p, o, n, rfl, rfl, h⟩
      · exact ⟨[], c :: old, d :: new, rfl, rfl, .inr (.inr (by simpa using e))⟩

/-- The common end. -/
theorem split_suffix (o n : Text) : ∃ x y s, o = x ++ s ∧ n = y ++ s ∧
    (x = [] ∨ y = [] ∨ ∃ x' y' c d, x = x' ++ [c] ∧ y = y' ++ [d] ∧ c ≠ d) := by
  obtain ⟨p, a, b, h1, h2, h⟩ := split_prefix o.reverse n.reverse
  refine ⟨a.reverse, b.reverse, p.reverse, ?_, ?_, ?_⟩
  · rw [← List.reverse_append, ← h1, List.reverse_reverse]
  · rw [← List.reverse_append, ← h2, List.reverse_reverse]
  · cases a with
    | nil => left; rfl
    | cons c a =>
      cases b with
      | nil => right; left; rfl
      | cons d b =>
        right; right
        refine ⟨a.reverse, b.reverse, c, d, by simp, by simp, ?_⟩
        simpa using h

theorem boundary_append (a b : Text) : isBoundary (a ++ b) (len8 a) = true := by
  simp [isBoundary, splitAtByte_append]

theorem boundary_some {s : Text} {k : Nat} (h : isBoundary s k = true) : ∃ a b, s = a ++ b ∧ k = len8 a := by
  unfold isBoundary at h
  rw [Option.isSome_iff_exists] at h
  obtain ⟨⟨a, b⟩, h⟩ := h
  exact ⟨a, b, splitAtByte_some h⟩

/-- Inside a character there is no boundary. -/
theorem not_boundary (p : Text) (c : Char) (r : Text) (k : Nat) (h0 : 0 < k) (hk : k < c.utf8Size) :
    isBoundary (p ++ c :: r) (len8 p + k) = false := by
  rw [Bool.eq_false_iff]
  intro h
  obtain ⟨a, b, e, hl⟩ := boundary_some h
  rcases List.append_eq_append_iff.mp e with ⟨m, h1, h2⟩ | ⟨m, h1, h2⟩
  · subst h1
    rw [len8_append] at hl
    cases m with
    | nil => simp [len8] at hl; omega
    | cons d m =>
      injection h2 with h2 h3
      subst h2
      rw [len8_cons] at hl; omega
  · subst h1
    rw [len8_append] at hl; omega

theorem shrink_eq (old new : Text) (q k : Nat) (hq : isBoundary old q = true ∧ isBoundary new q = true)
    (hno : ∀ i, 0 < i → i ≤ k → (isBoundary old (q + i) && isBoundary new (q + i)) = false) :
    shrink old new (q + k) = q := by
  induction k with
  | zero =>
    cases q with
    | zero => rfl
    | succ q => simp [shrink, hq]
  | succ k ih =>
    have h := hno (k + 1) (by omega) (by omega)
    show shrink old new (q + k + 1) = q
    rw [shrink]
    have e : q + k + 1 = q + (k + 1) := by omega
    rw [e, h]
    exact ih (fun i h1 h2 => hno i h1 (by omega))

theorem grow_some {old new : Text} {a fuel b : Nat} (h : grow old new a fuel = some b) :
    a ≤ b ∧ isBoundary old (len8 old - b) = true ∧ isBoundary new (len8 new - b) = true ∧ b < a + fuel := by
  induction fuel generalizing a with
  | zero => simp [grow] at h
  | succ fuel ih =>
    rw [grow] at h
    split at h
    · rename_i hb
      injection h with h; subst h
      rw [Bool.and_eq_true] at hb
      exact ⟨Nat.le_refl _, hb.1, hb.2, by omega⟩
    · have := ih h
      exact ⟨by omega, this.2.1, this.2.2.1, by omega⟩

theorem encode_drop (p o : Text) : (Utf8.encode (p ++ o)).drop (len8 p) = Utf8.encode o := by
  rw [Utf8.encode_append, ← encode_length, List.drop_left]

/-- The beginning is cut exactly where the texts begin to differ. -/
theorem prefix_found (p o n : Text) (h : o = [] ∨ n = [] ∨ o.head? ≠ n.head?) :
    shrink (p ++ o) (p ++ n) (commonLen (Utf8.encode (p ++ o)) (Utf8.encode (p ++ n))) = len8 p := by
  rw [Utf8.encode_append, Utf8.encode_append, commonLen_append, encode_length]
  refine shrink_eq _ _ _ _ ⟨boundary_append p o, boundary_append p n⟩ ?_
  intro i h0 hi
  cases o with
  | nil => simp [Utf8.encode, commonLen] at hi; omega
  | cons c o =>
    cases n with
    | nil =>
      rw [commonLen_comm] at hi
      simp [Utf8.encode, commonLen] at hi; omega
    | cons d n =>
      have hcd : c ≠ d := by simpa using h
      have := common_lt hcd (Utf8.encode o) (Utf8.encode n)
      rw [← Utf8.encode_cons, ← Utf8.encode_cons, Utf8.encodeChar_length, ← utf8Size_eq] at this
      rw [not_boundary p c o i h0 (by omega)]
      rfl


/-! ## The edit -/

theorem encode_inj {a b : Text} (h : Utf8.encode a = Utf8.encode b) : a = b := Utf8.encode_injective h

theorem calcDiff_same (s : Text) : calcDiff s s = some none := by
  have h := commonLen_append (Utf8.encode s) [] []
  simp only [List.append_nil, encode_length] at h
  simp [calcDiff, h, commonLen]

theorem not_same {old new : Text} (h : old ≠ new) :
    ¬ (commonLen (Utf8.encode old) (Utf8.encode new) = len8 old ∧
      commonLen (Utf8.encode old) (Utf8.encode new) = len8 new) := by
  rintro ⟨h1, h2⟩
  have ht := commonLen_take (Utf8.encode old) (Utf8.encode new) _ (Nat.le_refl _)
  rw [List.take_of_length_le (by rw [encode_length]; omega),
    List.take_of_length_le (by rw [encode_length]; omega)] at ht
  exact h (encode_inj ht)

/-- The steps after the beginning is found. -/
theorem calcDiff_eq (p o n : Text) (hne : p ++ o ≠ p ++ n) (h : o = [] ∨ n = [] ∨ o.head? ≠ n.head?) :
    calcDiff (p ++ o) (p ++ n) =
      (grow (p ++ o) (p ++ n) (commonLen (Utf8.encode o).reverse (Utf8.encode n).reverse)
        (min (len8 (p ++ o)) (len8 (p ++ n)) + 1 -
          commonLen (Utf8.encode o).reverse (Utf8.encode n).reverse)).bind fun suffix =>
        if len8 p ≤ len8 (p ++ n) - suffix then
          (splitAtByte n (len8 (p ++ n) - suffix - len8 p)).bind fun b =>
            some (some ((len8 p, len8 (p ++ o) - suffix), b.1))
        else none := by
  unfold calcDiff
  simp only
  rw [if_neg (not_same hne), prefix_found p o n h, encode_drop, encode_drop, splitAtByte_append]
  rfl

theorem common_end (x y s : Text) :
    commonLen (Utf8.encode (x ++ s)).reverse (Utf8.encode (y ++ s)).reverse =
      len8 s + commonLen (Utf8.encode x).reverse (Utf8.encode y).reverse := by
  rw [Utf8.encode_append, Utf8.encode_append, List.reverse_append, List.reverse_append, commonLen_append,
    List.length_reverse, encode_length]

/-- When no byte is shared beyond the common end. -/
theorem calcDiff_good (p x y s : Text) (hne : p ++ (x ++ s) ≠ p ++ (y ++ s))
    (h : x ++ s = [] ∨ y ++ s = [] ∨ (x ++ s).head? ≠ (y ++ s).head?)
    (h0 : commonLen (Utf8.encode x).reverse (Utf8.encode y).reverse = 0) :
    calcDiff (p ++ (x ++ s)) (p ++ (y ++ s)) = some (some ((len8 p, len8 p + len8 x), y)) := by
  rw [calcDiff_eq p _ _ hne h, common_end, h0, Nat.add_zero]
  have e1 : len8 (p ++ (x ++ s)) = len8 (p ++ x) + len8 s := by simp only [len8_append]; omega
  have e2 : len8 (p ++ (y ++ s)) = len8 (p ++ y) + len8 s := by simp only [len8_append]; omega
  have hf : min (len8 (p ++ (x ++ s))) (len8 (p ++ (y ++ s))) + 1 - len8 s =
      min (len8 (p ++ x)) (len8 (p ++ y)) + 1 := by omega
  have b1 : isBoundary (p ++ (x ++ s)) (len8 (p ++ (x ++ s)) - len8 s) = true := by
    rw [e1, Nat.add_sub_cancel, ← List.append_assoc]; exact boundary_append _ _
  have b2 : isBoundary (p ++ (y ++ s)) (len8 (p ++ (y ++ s)) - len8 s) = true := by
    rw [e2, Nat.add_sub_cancel, ← List.append_assoc]; exact boundary_append _ _
  rw [hf, grow, b1, b2]
  simp only [Bool.and_self, if_true, Option.bind_some]
  rw [e1, e2, Nat.add_sub_cancel, Nat.add_sub_cancel, len8_append, len8_append, if_pos (by omega),
    show len8 p + len8 y - len8 p = len8 y by omega, splitAtByte_append]
  rfl

theorem encode_snoc (x : Text) (c : Char) : (Utf8.encode (x ++ [c])).reverse =
    (Utf8.encodeChar c).reverse ++ (Utf8.encode x).reverse := by
  rw [Utf8.encode_append, List.reverse_append]
  simp [Utf8.encode]

/-- When different characters share their last byte: the edit, if there is one, leaves the old character. -/
theorem calcDiff_bad (p x y s : Text) (c d : Char) (hh : (x ++ c :: s).head? ≠ (y ++ d :: s).head?)
    (hc : Confusable c d) (r : Option ((Nat × Nat) × Text))
    (hr : calcDiff (p ++ (x ++ c :: s)) (p ++ (y ++ d :: s)) = some r) :
    ∃ u v w, r = some ((len8 p, len8 u), w) ∧ p ++ (x ++ c :: s) = u ++ (v ++ c :: s) := by
  have hne : p ++ (x ++ c :: s) ≠ p ++ (y ++ d :: s) := fun e => hh (by rw [List.append_cancel_left e])
  rw [calcDiff_eq p _ _ hne (.inr (.inr hh))] at hr
  have ex : x ++ c :: s = (x ++ [c]) ++ s := by simp
  have ey : y ++ d :: s = (y ++ [d]) ++ s := by simp
  rw [Option.bind_eq_some_iff] at hr
  obtain ⟨b, hg, hr⟩ := hr
  obtain ⟨hab, hb1, hb2, hb3⟩ := grow_some hg
  have hpos := (common_end_pos c d (Utf8.encode x).reverse (Utf8.encode y).reverse).mpr hc.2
  rw [ex, ey, common_end, encode_snoc, encode_snoc] at hab hb3
  rw [← ex, ← ey] at hb3
  split at hr
  · rw [Option.bind_eq_some_iff] at hr
    obtain ⟨q, _, hr⟩ := hr
    injection hr with hr
    obtain ⟨u, v, e, hl⟩ := boundary_some hb1
    have e' : (p ++ x ++ [c]) ++ s = u ++ v := by rw [← e]; simp
    have hlen : len8 (p ++ (x ++ c :: s)) = len8 (p ++ x) + c.utf8Size + len8 s := by
      simp only [len8_append, len8_cons]; omega
    have hult : len8 u < len8 (p ++ x) + c.utf8Size := by omega
    have : ∃ v', v = v' ++ c :: s := by
      rcases List.append_eq_append_iff.mp e' with ⟨m, h1, h2⟩ | ⟨m, h1, h2⟩
      · exfalso
        have := congrArg len8 h1
        simp only [len8_append, len8_cons, len8_nil] at this hult
        omega
      · rcases List.eq_nil_or_concat m with rfl | ⟨m', a, rfl⟩
        · exfalso
          have := congrArg len8 h1
          simp only [len8_append, len8_cons, len8_nil] at this hult
          omega
        · rw [List.concat_eq_append, ← List.append_assoc] at h1
          have := List.append_inj' h1 rfl
          have hca : c = a := by simpa using this.2
          subst hca
          exact ⟨m', by rw [h2]; simp⟩
    obtain ⟨v', rfl⟩ := this
    exact ⟨u, v', q.1, by rw [← hr, hl], e⟩
  · cases hr

theorem not_turns (p x y s : Text) (c d : Char) (hh : (x ++ c :: s).head? ≠ (y ++ d :: s).head?)
    (hc : Confusable c d) (r : Option ((Nat × Nat) × Text))
    (hr : calcDiff (p ++ (x ++ c :: s)) (p ++ (y ++ d :: s)) = some r) :
    ¬ Turns (p ++ (x ++ c :: s)) (p ++ (y ++ d :: s)) r := by
  obtain ⟨u, v, w, rfl, e⟩ := calcDiff_bad p x y s c d hh hc r hr
  intro ht
  unfold Turns at ht
  simp only [replaceRange] at ht
  split at ht
  · rename_i hle
    rw [splitAtByte_append] at ht
    simp only [Option.bind_eq_bind, Option.bind_some] at ht
    rw [Option.bind_eq_some_iff] at ht
    obtain ⟨⟨a, b⟩, hs, ht⟩ := ht
    obtain ⟨ha, hlen⟩ := splitAtByte_some hs
    have hpu : p ++ (a ++ b) = u ++ (v ++ c :: s) := by rw [← ha]; exact e
    have hlb : len8 b = len8 (v ++ c :: s) := by
      have := congrArg len8 hpu
      simp only [len8_append] at this ⊢
      omega
    have hb : b = v ++ c :: s := by
      have := congrArg Utf8.encode hpu
      rw [Utf8.encode_append, Utf8.encode_append, Utf8.encode_append u, ← List.append_assoc] at this
      exact encode_inj (List.append_inj' this (by rw [encode_length, encode_length]; exact hlb)).2
    subst hb
    have ht' : p ++ w ++ (v ++ c :: s) = p ++ (y ++ d :: s) := by injection ht
    have h2 : (p ++ w ++ v) ++ [c] ++ s = (p ++ y) ++ [d] ++ s := by simpa using ht'
    have h3 := (List.append_inj' (List.append_cancel_right h2) rfl).2
    exact hc.1 (by simpa using h3)
  · cases ht

end Tinymist.Format
