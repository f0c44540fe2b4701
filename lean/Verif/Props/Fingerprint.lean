import Verif.Lemmas.Fingerprint
/-!
# C26: fingerprint ids are injective and decodable
-/
namespace Tinymist.Fingerprint

/-- **C26.** Every 128-bit fingerprint, written as an SVG id without prefix, is read back as itself
(and reading does not panic). -/
theorem svg_id_roundtrip (lo hi : Nat) (hlo : lo < 2 ^ 64) (hhi : hi < 2 ^ 64) :
    tryFromStr (asSvgId ⟨lo, hi⟩ []) = some ⟨lo, hi⟩ := by
  have e64 : (2 : Nat) ^ 64 = 256 ^ 8 := by decide
  rw [e64] at hlo hhi
  have h11 : (encode (toLe 8 lo)).length = 11 := encode_length8 _ (toLe_length 8 lo)
  have hdl : decode (encode (toLe 8 lo)) = some (toLe 8 lo) := decode_encode _ (toLe_lt 8 lo)
  have hfl : fromLe (toLe 8 lo) = lo := fromLe_toLe 8 lo hlo
  unfold asSvgId
  simp only [List.nil_append]
  by_cases h0 : hi = 0
  · subst h0
    simp only [if_true]
    unfold tryFromStr
    rw [if_neg (by omega), List.take_of_length_le (by omega), hdl]
    simp only [toLe_length, if_true]
    rw [List.drop_eq_nil_of_le (by omega), show decode [] = some [] from rfl]
    simp only [hfl]
    rfl
  · rw [if_neg h0]
    generalize hr : ((toLe 8 hi).reverse.dropWhile (fun b => decide (b = 0))).length = r
    have htrim := trim_eq (toLe 8 hi)
    rw [hr, toLe_length] at htrim
    unfold tryFromStr
    rw [if_neg (by simp; omega), ← h11, List.take_left, List.drop_left, hdl]
    simp only [toLe_length, if_true]
    rw [decode_encode _ (fun b hb => toLe_lt 8 hi b (List.mem_of_mem_take hb))]
    simp only [hfl, Option.some.injEq, Fp.mk.injEq, true_and]
    have hrz : resize8 ((toLe 8 hi).take r) = toLe 8 hi := by
      unfold resize8
      have hlen : ((toLe 8 hi).take r).length ≤ 8 := by simp [toLe_length]; omega
      have hr8 : r ≤ 8 := by
        rw [← hr]
        have := (List.dropWhile_sublist (fun b => decide (b = 0)) (l := (toLe 8 hi).reverse)).length_le
        simpa [toLe_length] using this
      rw [List.take_append, List.take_of_length_le hlen, List.take_replicate]
      have : min (8 - ((toLe 8 hi).take r).length) 8 = 8 - r := by simp [toLe_length]; omega
      rw [this]
      exact htrim.symm
    rw [hrz]
    exact fromLe_toLe 8 hi hhi

/-- **C26.** With any prefix, two different fingerprints never get the same id. -/
theorem svg_id_injective (pre : List Char) (a b : Fp) (ha : a.lo < 2 ^ 64 ∧ a.hi < 2 ^ 64)
    (hb : b.lo < 2 ^ 64 ∧ b.hi < 2 ^ 64) (h : asSvgId a pre = asSvgId b pre) : a = b := by
  have hp : ∀ f : Fp, asSvgId f pre = pre ++ asSvgId f [] := by
    intro f; unfold asSvgId; simp only [List.nil_append]; split <;> simp
  rw [hp, hp, List.append_cancel_left_eq] at h
  have h1 := svg_id_roundtrip a.lo a.hi ha.1 ha.2
  have h2 := svg_id_roundtrip b.lo b.hi hb.1 hb.2
  have h' : asSvgId ⟨a.lo, a.hi⟩ [] = asSvgId ⟨b.lo, b.hi⟩ [] := h
  rw [h', h2] at h1
  exact (Option.some.inj h1).symm

/-- **C26.** The 128-bit integer view is a bijection. -/
theorem u128_roundtrip (h : Nat) (hh : h < 2 ^ 128) : toU128 (fromU128 h) = h := by
  have hlt : h % 2 ^ 64 < 2 ^ 64 := Nat.mod_lt _ (by decide)
  unfold toU128 fromU128
  simp only
  rw [← Nat.shiftLeft_add_eq_or_of_lt hlt, Nat.shiftLeft_eq, Nat.shiftRight_eq_div_pow]
  omega

/-- Non-vacuity: ids of different lengths, with zero bytes inside and at the end of the high half. -/
example : asSvgId ⟨1, 0⟩ "g".toList = "gAQAAAAAAAAA".toList ∧
    asSvgId ⟨1, 0x0100⟩ [] = "AQAAAAAAAAAAAE".toList ∧
    tryFromStr "AQAAAAAAAAAAAE".toList = some ⟨1, 0x0100⟩ ∧
    asSvgId ⟨2 ^ 64 - 1, 2 ^ 64 - 2⟩ [] = "//////////8/v////////8".toList := by decide +kernel

end Tinymist.Fingerprint
