import Verif.Model.RustNum
namespace Tinymist.RustNum

theorem digitVal_digitChar {b d : Nat} (hb : b ≤ 16) (hd : d < b) :
    digitVal b (digitChar d) = some d := by
  have h : ∀ b < 17, ∀ d < b, digitVal b (digitChar d) = some d := by decide +kernel
  exact h b (by omega) d hd

theorem digitChar_ne_plus {d : Nat} (hd : d < 16) : digitChar d ≠ '+' := by
  have : ∀ d < 16, digitChar d ≠ '+' := by decide
  exact this d hd

theorem parseDigits_append (b max : Nat) (xs ys : List Char) (acc : Nat) :
    parseDigits b max acc (xs ++ ys) = (parseDigits b max acc xs).bind (parseDigits b max · ys) := by
  induction xs generalizing acc with
  | nil => rfl
  | cons c cs ih =>
    simp only [List.cons_append, parseDigits]
    cases digitVal b c with
    | none => rfl
    | some d =>
      simp only []
      split
      · exact ih _
      · rfl

theorem parseDigits_print {b : Nat} (hb2 : 2 ≤ b) (hb : b ≤ 16) (max n : Nat) (hn : n ≤ max) :
    parseDigits b max 0 (print b n) = some n := by
  induction n using Nat.strongRecOn with
  | _ n ih =>
    rw [print]
    simp only [show ¬ b < 2 by omega, dite_false]
    split
    · rename_i h
      simp [parseDigits, digitVal_digitChar hb h, hn]
    · rename_i h
      rw [parseDigits_append, ih (n / b) (Nat.div_lt_self (by omega) (by omega))
        (Nat.le_trans (Nat.div_le_self n b) hn)]
      have hm : n % b < b := Nat.mod_lt _ (by omega)
      have hd : n / b * b + n % b = n := by rw [Nat.mul_comm]; exact Nat.div_add_mod n b
      simp [parseDigits, digitVal_digitChar hb hm, hd, hn]

theorem print_ne_nil {b : Nat} (hb2 : 2 ≤ b) (n : Nat) : print b n ≠ [] := by
  rw [print]
  simp only [show ¬ b < 2 by omega, dite_false]
  split <;> simp

theorem mem_print {b : Nat} (hb2 : 2 ≤ b) (n : Nat) :
    ∀ c ∈ print b n, ∃ d, d < b ∧ c = digitChar d := by
  induction n using Nat.strongRecOn with
  | _ n ih =>
    rw [print]
    simp only [show ¬ b < 2 by omega, dite_false]
    split
    · rename_i h
      intro c hc
      simp only [List.mem_singleton] at hc
      exact ⟨n, h, hc⟩
    · intro c hc
      simp only [List.mem_append, List.mem_singleton] at hc
      rcases hc with hc | hc
      · exact ih (n / b) (Nat.div_lt_self (by omega) (by omega)) c hc
      · exact ⟨n % b, Nat.mod_lt _ (by omega), hc⟩

/-- Parsing a printed number yields the number. -/
theorem parse_print {b : Nat} (hb2 : 2 ≤ b) (hb : b ≤ 16) (max n : Nat) (hn : n ≤ max) :
    parse b max (print b n) = some n := by
  have hp := parseDigits_print hb2 hb max n hn
  have hne := print_ne_nil hb2 n
  have hmem : ∀ c ∈ print b n, c ≠ '+' := by
    intro c hc
    obtain ⟨d, hd, rfl⟩ := mem_print hb2 n c hc
    exact digitChar_ne_plus (by omega)
  unfold parse
  split
  · rename_i h; exact absurd h hne
  · rename_i h; rw [h] at hmem; simp at hmem
  · rename_i h; rw [h] at hmem; simp at hmem
  · exact hp

theorem parse_le {b max : Nat} {s : List Char} {n : Nat} (h : parse b max s = some n) : n ≤ max := by
  have key : ∀ (cs : List Char) (acc : Nat), acc ≤ max → parseDigits b max acc cs = some n → n ≤ max := by
    intro cs
    induction cs with
    | nil => intro acc ha h; simp only [parseDigits, Option.some.injEq] at h; omega
    | cons c cs ih =>
      intro acc ha h
      simp only [parseDigits] at h
      cases hd : digitVal b c with
      | none => rw [hd] at h; simp at h
      | some d =>
        rw [hd] at h
        simp only [] at h
        split at h
        · rename_i hle; exact ih _ hle h
        · simp at h
  unfold parse at h
  split at h
  · simp at h
  · simp at h
  · exact key _ 0 (Nat.zero_le _) h
  · exact key _ 0 (Nat.zero_le _) h

end Tinymist.RustNum
