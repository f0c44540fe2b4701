import Verif.Model.Utf8
namespace Tinymist.Utf8

theorem toNat_valid (c : Char) : c.toNat < 0xD800 ∨ (0xDFFF < c.toNat ∧ c.toNat < 0x110000) := by
  exact c.valid

theorem ofNat_toNat (c : Char) : Char.ofNat c.toNat = c := Char.ofNat_toNat c

theorem encodeChar_length (c : Char) : (encodeChar c).length = len8 c := by
  simp only [encodeChar, len8]
  split
  · rfl
  · split
    · rfl
    · split <;> rfl

theorem len8_pos (c : Char) : 0 < len8 c := by
  unfold len8; split <;> (try split) <;> (try split) <;> omega

theorem encodeChar_ne_nil (c : Char) : encodeChar c ≠ [] := by
  have h1 := encodeChar_length c
  have h2 := len8_pos c
  intro h; rw [h] at h1; simp at h1; omega

theorem encode_cons (c : Char) (s : List Char) : encode (c :: s) = encodeChar c ++ encode s := rfl

theorem encode_append (s t : List Char) : encode (s ++ t) = encode s ++ encode t := by
  simp [encode]

theorem decodeOne_encodeChar (c : Char) (r : List Nat) :
    decodeOne (encodeChar c ++ r) = some (c, r) := by
  have hv := toNat_valid c
  simp only [encodeChar]
  by_cases h1 : c.toNat < 0x80
  · simp only [h1, if_true, List.cons_append, List.nil_append, decodeOne, ofNat_toNat]
  · by_cases h2 : c.toNat < 0x800
    · simp only [h1, h2, if_true, if_false, List.cons_append, List.nil_append, decodeOne]
      rw [if_neg (by omega), if_pos (by omega)]
      have hc : isCont (0x80 + c.toNat % 64) = true := by simp [isCont]; omega
      rw [hc]
      simp only [if_true]
      have e : (0xC0 + c.toNat / 64 - 0xC0) * 64 + (0x80 + c.toNat % 64 - 0x80) = c.toNat := by omega
      rw [e, ofNat_toNat]
    · by_cases h3 : c.toNat < 0x10000
      · simp only [h1, h2, h3, if_true, if_false, List.cons_append, List.nil_append, decodeOne]
        rw [if_neg (by omega), if_neg (by omega), if_pos (by omega)]
        have hc : isCont (0x80 + c.toNat % 64) = true := by simp [isCont]; omega
        have hb : isCont (0x80 + c.toNat / 64 % 64) = true := by simp [isCont]; omega
        have e : (0xE0 + c.toNat / 4096 - 0xE0) * 4096 + (0x80 + c.toNat / 64 % 64 - 0x80) * 64 +
            (0x80 + c.toNat % 64 - 0x80) = c.toNat := by omega
        rw [hc, hb, e]
        have hd : decide (0x800 ≤ c.toNat ∧ ¬ (0xD800 ≤ c.toNat ∧ c.toNat < 0xE000)) = true := by
          apply decide_eq_true; omega
        rw [hd]
        simp only [Bool.and_self, if_true, ofNat_toNat]
      · simp only [h1, h2, h3, if_false, List.cons_append, List.nil_append, decodeOne]
        rw [if_neg (by omega), if_neg (by omega), if_neg (by omega), if_pos (by omega)]
        have hc : isCont (0x80 + c.toNat % 64) = true := by simp [isCont]; omega
        have hb : isCont (0x80 + c.toNat / 64 % 64) = true := by simp [isCont]; omega
        have ha : isCont (0x80 + c.toNat / 4096 % 64) = true := by simp [isCont]; omega
        have e : (0xF0 + c.toNat / 262144 - 0xF0) * 262144 + (0x80 + c.toNat / 4096 % 64 - 0x80) * 4096 +
            (0x80 + c.toNat / 64 % 64 - 0x80) * 64 + (0x80 + c.toNat % 64 - 0x80) = c.toNat := by omega
        rw [hc, hb, ha, e]
        have hd : decide (0x10000 ≤ c.toNat ∧ c.toNat < 0x110000) = true := by
          apply decide_eq_true; omega
        rw [hd]
        simp only [Bool.and_self, if_true, ofNat_toNat]

theorem toNat_ofNat {n : Nat} (h : n < 0xD800 ∨ (0xDFFF < n ∧ n < 0x110000)) : (Char.ofNat n).toNat = n := by
  have hv : n.isValidChar := by
    rcases h with h | h
    · exact .inl h
    · exact .inr h
  rw [Char.ofNat, dif_pos hv]
  simp [Char.ofNatAux, Char.toNat]

/-- Only the encoding of a character is read as that character. -/
theorem decodeOne_sound {bs r : List Nat} {c : Char} (h : decodeOne bs = some (c, r)) : bs = encodeChar c ++ r := by
  match bs with
  | [] => cases h
  | a :: bs =>
    simp only [decodeOne] at h
    split at h
    · rename_i h1
      obtain ⟨hc, hr⟩ := Prod.mk.inj (Option.some.inj h)
      rw [← hc, ← hr, encodeChar, toNat_ofNat (by omega)]
      simp [h1]
    · split at h
      · rename_i h0 h1
        split at h
        · rename_i b r'
          split at h
          · rename_i hb
            simp only [isCont, decide_eq_true_eq] at hb
            obtain ⟨hc, hr⟩ := Prod.mk.inj (Option.some.inj h)
            rw [← hc, ← hr, encodeChar, toNat_ofNat (by omega)]
            rw [if_neg (by omega), if_pos (by omega)]
            simp only [List.cons_append, List.nil_append, List.cons.injEq, and_true]
            omega
          · cases h
        · cases h
      · split at h
        · rename_i h0 h1 h2
          split at h
          · rename_i b c' r'
            split at h
            · rename_i hb
              simp only [isCont, Bool.and_eq_true, decide_eq_true_eq] at hb
              obtain ⟨hc, hr⟩ := Prod.mk.inj (Option.some.inj h)
              rw [← hc, ← hr, encodeChar, toNat_ofNat (by omega)]
              rw [if_neg (by omega), if_neg (by omega), if_pos (by omega)]
              simp only [List.cons_append, List.nil_append, List.cons.injEq, and_true]
              omega
            · cases h
          · cases h
        · split at h
          · rename_i h0 h1 h2 h3
            split at h
            · rename_i b c' d r'
              split at h
              · rename_i hb
                simp only [isCont, Bool.and_eq_true, decide_eq_true_eq] at hb
                obtain ⟨hc, hr⟩ := Prod.mk.inj (Option.some.inj h)
                rw [← hc, ← hr, encodeChar, toNat_ofNat (by omega)]
                rw [if_neg (by omega), if_neg (by omega), if_neg (by omega)]
                simp only [List.cons_append, List.nil_append, List.cons.injEq, and_true]
                omega
              · cases h
            · cases h
          · cases h

theorem decodeFuel_sound {n : Nat} {bs : List Nat} {s : List Char} (h : decodeFuel n bs = some s) : bs = encode s := by
  induction n generalizing bs s with
  | zero =>
    cases bs with
    | nil => cases h; rfl
    | cons b bs => cases h
  | succ n ih =>
    cases bs with
    | nil => cases h; rfl
    | cons b bs =>
      rw [decodeFuel] at h
      · split at h
        · cases h
        · rename_i c r hd
          obtain ⟨t, ht, rfl⟩ := Option.map_eq_some_iff.mp h
          rw [decodeOne_sound hd, ih ht]
          rfl
      · intro h; cases h

/-- Only the bytes of a text are read as that text. -/
theorem decode_sound {bs : List Nat} {s : List Char} (h : decode bs = some s) : bs = encode s := decodeFuel_sound h

theorem decodeFuel_encode (s : List Char) (n : Nat) (h : s.length ≤ n) :
    decodeFuel n (encode s) = some s := by
  induction s generalizing n with
  | nil => cases n <;> rfl
  | cons c s ih =>
    cases n with
    | zero => simp at h
    | succ n =>
      rw [encode_cons]
      have hne := encodeChar_ne_nil c
      have hd := decodeOne_encodeChar c (encode s)
      cases hx : encodeChar c ++ encode s with
      | nil => simp at hx; exact absurd hx.1 hne
      | cons a r =>
        rw [hx] at hd
        simp only [decodeFuel, hd]
        rw [ih n (by simpa using h)]
        rfl

theorem length_le_encode (s : List Char) : s.length ≤ (encode s).length := by
  induction s with
  | nil => simp
  | cons c s ih =>
    rw [encode_cons, List.length_append, encodeChar_length, List.length_cons]
    have := len8_pos c
    omega

/-- Decoding the encoding of a text yields the text. -/
theorem decode_encode (s : List Char) : decode (encode s) = some s :=
  decodeFuel_encode s _ (length_le_encode s)

/-- Bytes of characters above ASCII are at least 0x80. -/
theorem mem_encodeChar {c : Char} {b : Nat} (h : b ∈ encodeChar c) :
    (c.toNat < 0x80 ∧ b = c.toNat) ∨ (0x80 ≤ c.toNat ∧ 0x80 ≤ b) := by
  simp only [encodeChar] at h
  split at h
  · simp only [List.mem_singleton] at h; left; exact ⟨by assumption, h⟩
  · right
    split at h
    · simp only [List.mem_cons, List.not_mem_nil, or_false] at h; omega
    · split at h <;> simp only [List.mem_cons, List.not_mem_nil, or_false] at h <;> omega

theorem encode_injective {s t : List Char} (h : encode s = encode t) : s = t := by
  have h1 := decode_encode s
  rw [h, decode_encode t] at h1
  exact (Option.some.inj h1).symm

end Tinymist.Utf8
