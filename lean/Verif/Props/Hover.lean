import Verif.Spec.Hover

/-!
# Hovering (C136)
-/

namespace Tinymist.Hover

open Spec

/-! ## The place that is previewed -/

variable {P : Type}

theorem ring_some {jump : Nat → Option P} {len cursor idx : Nat} {p : P} (hidx : 1 ≤ idx ∧ idx < 100)
    (h : (if cursor + idx < len then jump (cursor + idx) else none).or
        (if idx ≤ cursor then jump (cursor - idx) else none) = some p) :
    ∃ c, jump c = some p ∧ Near len cursor c ∧ dist c cursor = idx ∧
      ∀ c', Near len cursor c' → jump c' ≠ none → dist c' cursor = idx → c' ≤ c := by
  rw [Option.or_eq_some_iff] at h
  rcases h with h | ⟨h0, h⟩
  · split at h
    · rename_i hlt
      refine ⟨cursor + idx, h, .inr ⟨by simp only [dist]; omega, .inl hlt⟩, by simp only [dist]; omega, ?_⟩
      intro c' _ _ hd
      simp only [dist] at hd
      omega
    · cases h
  · split at h
    · rename_i hle
      refine ⟨cursor - idx, h, .inr ⟨by simp only [dist]; omega, .inr (by omega)⟩, by simp only [dist]; omega, ?_⟩
      intro c' hn hj hd
      simp only [dist] at hd
      rcases Nat.lt_or_ge cursor c' with hc | hc
      · have hc' : c' = cursor + idx := by omega
        subst hc'
        have hlt : cursor + idx < len := by
          rcases hn with hn | ⟨-, hn⟩ <;> omega
        rw [if_pos hlt] at h0
        exact absurd h0 hj
      · omega
    · cases h

theorem ring_none {jump : Nat → Option P} {len cursor idx : Nat} (hidx : 1 ≤ idx ∧ idx < 100)
    (h : (if cursor + idx < len then jump (cursor + idx) else none).or
        (if idx ≤ cursor then jump (cursor - idx) else none) = none) :
    ∀ c, Near len cursor c → dist c cursor = idx → jump c = none := by
  rw [Option.or_eq_none_iff] at h
  intro c hn hd
  simp only [dist] at hd
  rcases Nat.lt_or_ge cursor c with hc | hc
  · have hc' : c = cursor + idx := by omega
    subst hc'
    have hlt : cursor + idx < len := by
      rcases hn with hn | ⟨-, hn⟩ <;> omega
    have := h.1
    rwa [if_pos hlt] at this
  · have hc' : c = cursor - idx := by omega
    subst hc'
    have := h.2
    rwa [if_pos (by omega)] at this

theorem rings {jump : Nat → Option P} {len cursor : Nat} (n k : Nat) (hk : k + n ≤ 100) (h1 : 1 ≤ k)
    (hbefore : ∀ c, Near len cursor c → dist c cursor < k → jump c = none) :
    match (List.range' k n).findSome? (fun idx =>
      (if cursor + idx < len then jump (cursor + idx) else none).or
        (if idx ≤ cursor then jump (cursor - idx) else none)) with
    | some p => ∃ c, jump c = some p ∧ Closest jump len cursor c
    | none => ∀ c, Near len cursor c → dist c cursor < k + n → jump c = none := by
  induction n generalizing k with
  | zero => simpa using hbefore
  | succ n ih =>
    rw [List.range'_succ, List.findSome?_cons]
    cases hr : (if cursor + k < len then jump (cursor + k) else none).or
        (if k ≤ cursor then jump (cursor - k) else none) with
    | some p =>
      obtain ⟨c, hc, hn, hd, ht⟩ := ring_some ⟨h1, by omega⟩ hr
      refine ⟨c, hc, hn, by rw [hc]; simp, ?_⟩
      intro c' hn' hj'
      rcases Nat.lt_or_ge (dist c' cursor) k with hlt | hge
      · exact absurd (hbefore c' hn' hlt) hj'
      · rcases Nat.lt_or_ge k (dist c' cursor) with hlt | hle
        · exact .inl (by omega)
        · exact .inr ⟨by omega, ht c' hn' hj' (by omega)⟩
    | none =>
      have hnone := ring_none ⟨h1, by omega⟩ hr
      have := ih (k + 1) (by omega) (by omega) (fun c hn hd => by
        rcases Nat.lt_or_ge (dist c cursor) k with hlt | hge
        · exact hbefore c hn hlt
        · exact hnone c hn (by omega))
      rw [show k + 1 + n = k + (n + 1) by omega] at this
      exact this

/-- C136: what is previewed is the place of the closest cursor that has one, and nothing is previewed only if no cursor
nearby has a place. -/
theorem closest_previewed (jump : Nat → Option P) (len cursor : Nat) :
    match position jump len cursor with
    | some p => ∃ c, jump c = some p ∧ Closest jump len cursor c
    | none => ∀ c, Near len cursor c → jump c = none := by
  rw [position]
  cases h : jump cursor with
  | some p =>
    rw [Option.some_or]
    refine ⟨cursor, h, .inl rfl, by rw [h]; simp, ?_⟩
    intro c' _ _
    simp only [dist]
    omega
  | none =>
    rw [Option.none_or]
    have := rings (jump := jump) (len := len) (cursor := cursor) 99 1 (by omega) (by omega) (fun c _ hd => by
      have : c = cursor := by simp only [dist] at hd; omega
      rw [this, h])
    revert this
    generalize List.findSome? _ _ = r
    cases r with
    | some p => exact id
    | none =>
      intro h c hn
      refine h c hn ?_
      rcases hn with rfl | ⟨hd, -⟩
      · simp only [dist]; omega
      · exact hd

/-- There is at most one closest cursor. -/
theorem closest_unique {jump : Nat → Option P} {len cursor a b : Nat} (ha : Closest jump len cursor a)
    (hb : Closest jump len cursor b) : a = b := by
  have h1 := ha.2.2 b hb.1 hb.2.1
  have h2 := hb.2.2 a ha.1 ha.2.1
  omega

/-! ## Links -/

/-- C136: an action is offered for exactly the targets of the links whose path, or the quote before it, is under the pointer,
without its last character.

Partial: the path itself is meant (`last_character_no_link`, `quote_has_link`). -/
theorem link_offered_partial (links : List Link) (offset : Nat) (target : List Char) :
    target ∈ linkTargets links offset ↔
      ∃ l ∈ links, l.target = some target ∧ l.start ≤ offset + 1 ∧ offset + 1 < l.stop := by
  simp only [linkTargets, List.mem_filterMap, List.mem_filter, decide_eq_true_eq]
  constructor
  · rintro ⟨l, ⟨h1, h2, h3⟩, h4⟩
    exact ⟨l, h1, h4, h2, h3⟩
  · rintro ⟨l, h1, h4, h2, h3⟩
    exact ⟨l, ⟨h1, h2, h3⟩, h4⟩

/-- C136: within a path, but for its last character, the link is offered. -/
theorem inner_link_offered (links : List Link) (l : Link) (hl : l ∈ links) (target : List Char) (ht : l.target = some target)
    (offset : Nat) (h1 : l.start ≤ offset) (h2 : offset + 1 < l.stop) : target ∈ linkTargets links offset :=
  (link_offered_partial links offset target).mpr ⟨l, hl, ht, by omega, h2⟩

/-- C136, what does not hold: at the last character of a path nothing is offered. -/
theorem last_character_no_link (start stop : Nat) (h : start < stop) (target : List Char) :
    linkTargets [⟨start, stop, some target⟩] (stop - 1) = [] := by
  have : ¬ (start ≤ stop - 1 + 1 ∧ stop - 1 + 1 < stop) := by omega
  simp [linkTargets, this]

/-- C136, what does not hold: at the quote before the path it is. -/
theorem quote_has_link (start stop : Nat) (h : start + 1 < stop) (target : List Char) :
    linkTargets [⟨start + 1, stop, some target⟩] start = [target] := by
  simp [linkTargets, h]

/-! ## Commands -/

theorem upper_digit (n : Nat) (h : n < 16) : Digit (upperHex n) n := by
  match n, h with
  | 0, _ => exact Digit.digit (c := upperHex 0) (by decide) (by decide)
  | 1, _ => exact Digit.digit (c := upperHex 1) (by decide) (by decide)
  | 2, _ => exact Digit.digit (c := upperHex 2) (by decide) (by decide)
  | 3, _ => exact Digit.digit (c := upperHex 3) (by decide) (by decide)
  | 4, _ => exact Digit.digit (c := upperHex 4) (by decide) (by decide)
  | 5, _ => exact Digit.digit (c := upperHex 5) (by decide) (by decide)
  | 6, _ => exact Digit.digit (c := upperHex 6) (by decide) (by decide)
  | 7, _ => exact Digit.digit (c := upperHex 7) (by decide) (by decide)
  | 8, _ => exact Digit.digit (c := upperHex 8) (by decide) (by decide)
  | 9, _ => exact Digit.digit (c := upperHex 9) (by decide) (by decide)
  | 10, _ => exact Digit.upper (c := upperHex 10) (by decide) (by decide)
  | 11, _ => exact Digit.upper (c := upperHex 11) (by decide) (by decide)
  | 12, _ => exact Digit.upper (c := upperHex 12) (by decide) (by decide)
  | 13, _ => exact Digit.upper (c := upperHex 13) (by decide) (by decide)
  | 14, _ => exact Digit.upper (c := upperHex 14) (by decide) (by decide)
  | 15, _ => exact Digit.upper (c := upperHex 15) (by decide) (by decide)
  | n + 16, h => omega

theorem lower_digit (n : Nat) (h : n < 16) : Digit (lowerHex n) n := by
  match n, h with
  | 0, _ => exact Digit.digit (c := lowerHex 0) (by decide) (by decide)
  | 1, _ => exact Digit.digit (c := lowerHex 1) (by decide) (by decide)
  | 2, _ => exact Digit.digit (c := lowerHex 2) (by decide) (by decide)
  | 3, _ => exact Digit.digit (c := lowerHex 3) (by decide) (by decide)
  | 4, _ => exact Digit.digit (c := lowerHex 4) (by decide) (by decide)
  | 5, _ => exact Digit.digit (c := lowerHex 5) (by decide) (by decide)
  | 6, _ => exact Digit.digit (c := lowerHex 6) (by decide) (by decide)
  | 7, _ => exact Digit.digit (c := lowerHex 7) (by decide) (by decide)
  | 8, _ => exact Digit.digit (c := lowerHex 8) (by decide) (by decide)
  | 9, _ => exact Digit.digit (c := lowerHex 9) (by decide) (by decide)
  | 10, _ => exact Digit.lower (c := lowerHex 10) (by decide) (by decide)
  | 11, _ => exact Digit.lower (c := lowerHex 11) (by decide) (by decide)
  | 12, _ => exact Digit.lower (c := lowerHex 12) (by decide) (by decide)
  | 13, _ => exact Digit.lower (c := lowerHex 13) (by decide) (by decide)
  | 14, _ => exact Digit.lower (c := lowerHex 14) (by decide) (by decide)
  | 15, _ => exact Digit.lower (c := lowerHex 15) (by decide) (by decide)
  | n + 16, h => omega

theorem kept_char : ∀ b < 256, kept b = true → (Char.ofNat b).toNat = b ∧ Plain (Char.ofNat b) ∧ b < 128 ∧ Char.ofNat b ≠ '%' := by
  unfold Plain
  decide +kernel

theorem kept_all (b : Nat) (h : kept b = true) : (Char.ofNat b).toNat = b ∧ Plain (Char.ofNat b) ∧ b < 128 ∧ Char.ofNat b ≠ '%' := by
  refine kept_char b ?_ h
  simp only [kept, Bool.or_eq_true, Bool.and_eq_true, decide_eq_true_eq] at h
  omega

theorem hex_plain : ∀ n < 16, Plain (upperHex n) := by
  unfold Plain
  decide +kernel

/-- C136: escaping is undone by the reader. -/
theorem escape_unescapes (bs : List Nat) (h : ∀ b ∈ bs, b < 256) : Unescapes (percentEncode bs) bs := by
  induction bs with
  | nil => exact .nil
  | cons b bs ih =>
    have ih := ih fun x hx => h x (.tail _ hx)
    have hb := h b (.head _)
    rw [percentEncode]
    split
    · rename_i hk
      obtain ⟨h1, -, h3, h4⟩ := kept_all b hk
      have := Unescapes.plain h4 (by rw [h1]; exact h3) ih
      rwa [h1] at this
    · have := Unescapes.escape (upper_digit (b / 16) (by omega)) (upper_digit (b % 16) (by omega)) ih
      rwa [show 16 * (b / 16) + b % 16 = b by omega] at this

/-- C136: and only letters, digits and percent signs are left, nothing that could end the link. -/
theorem escape_plain (bs : List Nat) (h : ∀ b ∈ bs, b < 256) : ∀ c ∈ percentEncode bs, c = '%' ∨ Plain c := by
  induction bs with
  | nil => simp [percentEncode]
  | cons b bs ih =>
    have ih := ih fun x hx => h x (.tail _ hx)
    have hb := h b (.head _)
    intro c hc
    rw [percentEncode] at hc
    split at hc
    · rename_i hk
      rcases List.mem_cons.mp hc with rfl | hc
      · exact .inr (kept_all b hk).2.1
      · exact ih c hc
    · rcases List.mem_cons.mp hc with rfl | hc
      · exact .inl rfl
      · rcases List.mem_cons.mp hc with rfl | hc
        · exact .inr (hex_plain _ (by omega))
        · rcases List.mem_cons.mp hc with rfl | hc
          · exact .inr (hex_plain _ (by omega))
          · exact ih c hc

theorem digit_unique {c : Char} {a b : Nat} (h : Digit c a) (h' : Digit c b) : a = b := by
  have le : ∀ x y : Char, x ≤ y ↔ x.toNat ≤ y.toNat := fun _ _ => Iff.rfl
  cases h <;> cases h' <;> simp only [le, Char.reduceToNat] at * <;> omega

/-- The bytes of an escaped text are determined by it. -/
theorem unescapes_unique {cs : List Char} {a b : List Nat} (h : Unescapes cs a) (h' : Unescapes cs b) : a = b := by
  induction h generalizing b with
  | nil => cases h'; rfl
  | plain hc _ _ ih => cases h' with
    | plain _ _ h => rw [ih h]
    | escape _ _ _ => exact absurd rfl hc
  | escape h1 h2 _ ih => cases h' with
    | plain hc _ _ => exact absurd rfl hc
    | escape h1' h2' h => rw [ih h, digit_unique h1 h1', digit_unique h2 h2']

theorem json_char (c : Char) {cs s : List Char} (h : InQuotes cs s) : InQuotes (jsonChar c ++ cs) (c :: s) := by
  have ofNat : ∀ n, c.toNat = n → c = Char.ofNat n := by
    rintro n rfl
    exact (Char.ofNat_toNat c).symm
  rw [jsonChar]
  split
  · rename_i hc; subst hc; exact .quote h
  · split
    · rename_i hc; subst hc; exact .backslash h
    · split
      · rename_i hc; rw [ofNat _ hc]; exact .backspace h
      · split
        · rename_i hc; rw [ofNat _ hc]; exact .tab h
        · split
          · rename_i hc; rw [ofNat _ hc]; exact .newline h
          · split
            · rename_i hc; rw [ofNat _ hc]; exact .formFeed h
            · split
              · rename_i hc; rw [ofNat _ hc]; exact .carriage h
              · split
                · rename_i hc
                  refine .unicode c (a := 0) (b := 0) (c := c.toNat / 16) (d := c.toNat % 16) ?_ ?_
                    (lower_digit _ (by omega)) (lower_digit _ (by omega)) (by omega) h
                  · exact Digit.digit (c := '0') (by decide) (by decide)
                  · exact Digit.digit (c := '0') (by decide) (by decide)
                · rename_i h1 h2 _ _ _ _ _ h3
                  exact .plain (by omega) h1 h2 h

/-- C136: the argument of a command is read as the string it was. -/
theorem argument_read (s : List Char) : OneString (jsonArgs s) s := by
  refine ⟨s.flatMap jsonChar, rfl, ?_⟩
  induction s with
  | nil => exact .nil
  | cons c s ih =>
    rw [List.flatMap_cons]
    exact json_char c ih

/-- What stands between quotes is determined. -/
theorem in_quotes_unique {cs a b : List Char} (h : InQuotes cs a) (h' : InQuotes cs b) : a = b := by
  induction h generalizing b with
  | nil => cases h'; rfl
  | plain _ _ hb _ ih => cases h' with
    | plain _ _ _ h => rw [ih h]
    | _ => exact absurd rfl hb
  | unicode x h1 h2 h3 h4 hx _ ih => cases h' with
    | plain _ _ hb _ => exact absurd rfl hb
    | unicode y h1' h2' h3' h4' hy h =>
      rw [ih h]
      rw [digit_unique h1 h1', digit_unique h2 h2', digit_unique h3 h3', digit_unique h4 h4', ← hy] at hx
      rw [← Char.ofNat_toNat x, hx, Char.ofNat_toNat]
  | quote _ ih => cases h' with
    | plain _ _ hb _ => exact absurd rfl hb
    | quote h => rw [ih h]
  | backslash _ ih => cases h' with
    | plain _ _ hb _ => exact absurd rfl hb
    | backslash h => rw [ih h]
  | slash _ ih => cases h' with
    | plain _ _ hb _ => exact absurd rfl hb
    | slash h => rw [ih h]
  | backspace _ ih => cases h' with
    | plain _ _ hb _ => exact absurd rfl hb
    | backspace h => rw [ih h]
  | formFeed _ ih => cases h' with
    | plain _ _ hb _ => exact absurd rfl hb
    | formFeed h => rw [ih h]
  | newline _ ih => cases h' with
    | plain _ _ hb _ => exact absurd rfl hb
    | newline h => rw [ih h]
  | carriage _ ih => cases h' with
    | plain _ _ hb _ => exact absurd rfl hb
    | carriage h => rw [ih h]
  | tab _ ih => cases h' with
    | plain _ _ hb _ => exact absurd rfl hb
    | tab h => rw [ih h]

/-- C136: the whole command: the link ends where it should, and the reader gets the argument. -/
theorem command_read (utf8 : List Char → List Nat) (hu : ∀ s, ∀ b ∈ utf8 s, b < 256) (title id arg : List Char) :
    ∃ query, commandLink utf8 title id arg = '[' :: title ++ ']' :: '(' :: ("command:".toList ++ id ++ '?' :: query) ++ [')'] ∧
      (∀ c ∈ query, c ≠ ')' ∧ c ≠ ' ' ∧ c ≠ '?' ∧ c ≠ '#') ∧
      ∃ text, Unescapes query (utf8 text) ∧ OneString text arg := by
  refine ⟨percentEncode (utf8 (jsonArgs arg)), rfl, ?_, jsonArgs arg, escape_unescapes _ (hu _), argument_read arg⟩
  intro c hc
  have := escape_plain _ (hu _) c hc
  refine ⟨?_, ?_, ?_, ?_⟩ <;> (rintro rfl; revert this; unfold Plain; decide)

/-! ## Cases -/

/-- The cursor is before a word that was laid out. -/
example : position (fun c => if 12 ≤ c ∧ c < 15 then some c else none) 20 10 = some 12 := by decide

example : position (fun c => if c = 8 ∨ c = 12 then some c else none) 20 10 = some 12 := by decide

example : linkTargets [⟨7, 12, some ['a']⟩, ⟨20, 24, some ['b']⟩] 8 = [['a']] := by decide

example : percentEncode ([91, 34, 97, 41, 34, 93]) = "%5B%22a%29%22%5D".toList := by decide

end Tinymist.Hover
