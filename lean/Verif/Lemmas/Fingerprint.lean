import Verif.Model.Fingerprint
namespace Tinymist.Fingerprint

theorem unsextets_sextets (bs : List Nat) (h : ∀ b ∈ bs, b < 256) : unsextets (sextets bs) = some bs := by
  fun_induction sextets bs with
  | case1 a b c rest ih =>
    simp only [List.mem_cons, forall_eq_or_imp] at h
    obtain ⟨ha, hb, hc, hr⟩ := h
    simp only [unsextets, ih hr, Option.map_some, Option.some.injEq, List.cons.injEq, and_true]
    omega
  | case2 a b =>
    simp only [List.mem_cons, forall_eq_or_imp, List.not_mem_nil, false_imp_iff, implies_true, and_true] at h
    simp only [unsextets]
    rw [if_pos (by omega)]
    simp only [Option.some.injEq, List.cons.injEq, and_true]
    omega
  | case3 a =>
    simp only [List.mem_cons, forall_eq_or_imp, List.not_mem_nil, false_imp_iff, implies_true, and_true] at h
    simp only [unsextets]
    rw [if_pos (by omega)]
    simp only [Option.some.injEq, List.cons.injEq, and_true]
    omega
  | case4 => rfl

theorem sextets_lt (bs : List Nat) (h : ∀ b ∈ bs, b < 256) : ∀ v ∈ sextets bs, v < 64 := by
  fun_induction sextets bs with
  | case1 a b c rest ih =>
    simp only [List.mem_cons, forall_eq_or_imp] at h ⊢
    obtain ⟨ha, hb, hc, hr⟩ := h
    refine ⟨by omega, by omega, by omega, by omega, ih hr⟩
  | case2 a b =>
    simp only [List.mem_cons, forall_eq_or_imp, List.not_mem_nil, false_imp_iff, implies_true, and_true] at h ⊢
    omega
  | case3 a =>
    simp only [List.mem_cons, forall_eq_or_imp, List.not_mem_nil, false_imp_iff, implies_true, and_true] at h ⊢
    omega
  | case4 => simp

theorem alphabet_inv : ∀ v < 64, alphabet.findIdx? (· = alphabet.getD v 'A') = some v := by
  decide +kernel

theorem decode_encode (bs : List Nat) (h : ∀ b ∈ bs, b < 256) : decode (encode bs) = some bs := by
  have hm : ∀ l : List Nat, (∀ v ∈ l, v < 64) →
      (l.map fun v => alphabet.getD v 'A').mapM (fun c => alphabet.findIdx? (· = c)) = some l := by
    intro l hl
    induction l with
    | nil => rfl
    | cons v l ih =>
      simp only [List.mem_cons, forall_eq_or_imp] at hl
      rw [List.map_cons, List.mapM_cons, alphabet_inv v hl.1, ih hl.2]
      rfl
  unfold decode encode
  rw [hm _ (sextets_lt bs h)]
  exact unsextets_sextets bs h

theorem encode_length8 (bs : List Nat) (h : bs.length = 8) : (encode bs).length = 11 := by
  match bs, h with
  | [_, _, _, _, _, _, _, _], _ => rfl

theorem toLe_length (k n : Nat) : (toLe k n).length = k := by
  induction k generalizing n with
  | zero => rfl
  | succ k ih => simp [toLe, ih]

theorem toLe_lt (k n : Nat) : ∀ b ∈ toLe k n, b < 256 := by
  induction k generalizing n with
  | zero => simp [toLe]
  | succ k ih =>
    simp only [toLe, List.mem_cons, forall_eq_or_imp]
    exact ⟨Nat.mod_lt _ (by omega), ih _⟩

theorem fromLe_toLe (k n : Nat) (h : n < 256 ^ k) : fromLe (toLe k n) = n := by
  induction k generalizing n with
  | zero => simp [toLe, fromLe] at *; omega
  | succ k ih =>
    simp only [toLe, fromLe]
    rw [ih]
    · omega
    · rw [Nat.pow_succ] at h
      exact Nat.div_lt_of_lt_mul (by omega)

theorem fromLe_append_zeros (bs : List Nat) (m : Nat) :
    fromLe (bs ++ List.replicate m 0) = fromLe bs := by
  induction bs with
  | nil =>
    induction m with
    | zero => rfl
    | succ m ih => simp only [List.nil_append, List.replicate_succ, fromLe] at *; omega
  | cons b bs ih => simp only [List.cons_append, fromLe, ih]

/-- Dropping trailing zero bytes and appending zeros gives the bytes back. -/
theorem trim_eq (bs : List Nat) :
    bs = bs.take (bs.reverse.dropWhile (fun b => b = 0)).length ++
      List.replicate (bs.length - (bs.reverse.dropWhile (fun b => b = 0)).length) 0 := by
  have key : ∀ l : List Nat, l = List.replicate (l.length - (l.dropWhile (fun b => b = 0)).length) 0 ++
      l.dropWhile (fun b => b = 0) := by
    intro l
    induction l with
    | nil => rfl
    | cons a l ih =>
      by_cases ha : a = 0
      · subst ha
        have hle : (l.dropWhile (fun b => b = 0)).length ≤ l.length := (List.dropWhile_sublist _).length_le
        simp only [List.dropWhile_cons, decide_true, if_true, List.length_cons]
        rw [show l.length + 1 - (l.dropWhile (fun b => b = 0)).length =
          (l.length - (l.dropWhile (fun b => b = 0)).length) + 1 by omega, List.replicate_succ,
          List.cons_append, ← ih]
      · simp [List.dropWhile_cons, ha]
  have h := congrArg List.reverse (key bs.reverse)
  simp only [List.reverse_reverse, List.reverse_append, List.reverse_replicate, List.length_reverse] at h
  generalize hd : bs.reverse.dropWhile (fun b => b = 0) = d at h ⊢
  have : bs.take d.length = d.reverse := by
    rw [h]; simp
  rw [this]
  exact h

end Tinymist.Fingerprint
