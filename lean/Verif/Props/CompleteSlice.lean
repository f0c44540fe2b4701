import Verif.Props.CompleteEdits

/-!
The text around the cursor that completion looks at.
-/
namespace Tinymist.Complete

open Position

theorem isBoundary_iff (s : Text) (n : Nat) : isBoundary s n = true ↔ ∃ a b, s = a ++ b ∧ len8 a = n := by
  unfold isBoundary
  rw [Option.isSome_iff_exists]
  constructor
  · rintro ⟨⟨a, b⟩, h⟩
    obtain ⟨h1, h2⟩ := splitAtByte_some h
    exact ⟨a, b, h1, h2.symm⟩
  · rintro ⟨a, b, rfl, rfl⟩
    exact ⟨_, splitAtByte_append a b⟩

theorem moveUp_spec (s : Text) (gap start : Nat) :
    start ≤ moveUp s gap start ∧ moveUp s gap start ≤ start + gap ∧
      (∀ m, start ≤ m → m < moveUp s gap start → isBoundary s m = false) ∧
      (moveUp s gap start = start + gap ∨ isBoundary s (moveUp s gap start) = true) := by
  induction gap generalizing start with
  | zero => simp [moveUp]; intros; omega
  | succ gap ih =>
    rw [moveUp]
    split
    · rename_i h
      exact ⟨by omega, by omega, by intros; omega, .inr h⟩
    · rename_i h
      obtain ⟨h1, h2, h3, h4⟩ := ih (start + 1)
      refine ⟨by omega, by omega, fun m hm hlt => ?_, ?_⟩
      · rcases Nat.lt_or_ge start m with hs | hs
        · exact h3 m hs hlt
        · rw [show m = start by omega]; simpa using h
      · rcases h4 with h4 | h4
        · exact .inl (by omega)
        · exact .inr h4

theorem moveDown_spec (s : Text) (gap stop : Nat) (hg : gap ≤ stop) :
    stop - gap ≤ moveDown s gap stop ∧ moveDown s gap stop ≤ stop ∧
      (∀ m, m ≤ stop → moveDown s gap stop < m → isBoundary s m = false) ∧
      (moveDown s gap stop = stop - gap ∨ isBoundary s (moveDown s gap stop) = true) := by
  induction gap generalizing stop with
  | zero => simp [moveDown]; intros; omega
  | succ gap ih =>
    rw [moveDown]
    split
    · rename_i h
      exact ⟨by omega, by omega, by intros; omega, .inr h⟩
    · rename_i h
      obtain ⟨h1, h2, h3, h4⟩ := ih (stop - 1) (by omega)
      refine ⟨by omega, by omega, fun m hm hlt => ?_, ?_⟩
      · rcases Nat.lt_or_ge m stop with hs | hs
        · exact h3 m (by omega) hlt
        · rw [show m = stop by omega]; simpa using h
      · rcases h4 with h4 | h4
        · exact .inl (by omega)
        · exact .inr h4

theorem whole_append (start stop n : Nat) (a b : Text) :
    whole start stop n (a ++ b) = whole start stop n a ++ whole start stop (n + len8 a) b := by
  induction a generalizing n with
  | nil => simp [whole, len8]
  | cons c a ih =>
    rw [List.cons_append, whole, whole, ih, len8_cons, ← Nat.add_assoc]
    split <;> simp

theorem whole_none {start stop n : Nat} {s : Text}
    (h : ∀ a c b, s = a ++ c :: b → ¬ (start ≤ n + len8 a ∧ n + len8 a + c.utf8Size ≤ stop)) :
    whole start stop n s = [] := by
  induction s generalizing n with
  | nil => rfl
  | cons c s ih =>
    rw [whole, if_neg (by simpa [len8] using h [] c s rfl)]
    refine ih fun a d b e => ?_
    have := h (c :: a) d b (by rw [e]; rfl)
    rwa [len8_cons, ← Nat.add_assoc] at this

theorem whole_all {start stop n : Nat} {s : Text} (h1 : start ≤ n) (h2 : n + len8 s ≤ stop) : whole start stop n s = s := by
  induction s generalizing n with
  | nil => rfl
  | cons c s ih =>
    rw [len8_cons] at h2
    rw [whole, if_pos ⟨h1, by omega⟩, ih (by omega) (by omega)]

/-- C103. Whatever the text and the range are, also when the range lies outside of the text, is empty, or begins or ends
inside of a character, the slice is what lies in it of whole characters: it does not fail. -/
theorem slice_whole (s : Text) (start stop : Nat) : sliceAt s start stop = some (whole start stop 0 s) := by
  unfold sliceAt
  dsimp only
  obtain ⟨u1, u2, u3, u4⟩ := moveUp_spec s (stop - start) start
  generalize moveUp s (stop - start) start = st at *
  obtain ⟨d1, d2, d3, d4⟩ := moveDown_spec s (stop - st) stop (by omega)
  generalize moveDown s (stop - st) stop = sp at *
  split
  · rename_i hle
    rw [whole_none]
    rintro a c b rfl ⟨h1, h2⟩
    have hc := Char.utf8Size_pos c
    have b1 : isBoundary (a ++ c :: b) (len8 a) = true := (isBoundary_iff _ _).mpr ⟨a, c :: b, rfl, rfl⟩
    have b2 : isBoundary (a ++ c :: b) (len8 a + c.utf8Size) = true :=
      (isBoundary_iff _ _).mpr ⟨a ++ [c], b, by simp, by simp [len8_append, len8_cons, len8]⟩
    rcases Nat.lt_or_ge (len8 a) st with h | h
    · have := u3 (len8 a) (by omega) h
      simp [this] at b1
    · rcases Nat.lt_or_ge sp (len8 a + c.utf8Size) with h' | h'
      · have := d3 _ (by omega) h'
        simp [this] at b2
      · omega
  · rename_i hlt
    have bs : isBoundary s st = true := by
      rcases u4 with h | h
      · omega
      · exact h
    have be : isBoundary s sp = true := by
      rcases d4 with h | h
      · omega
      · exact h
    obtain ⟨a1, b1, e1, l1⟩ := (isBoundary_iff _ _).mp bs
    obtain ⟨a2, b2, e2, l2⟩ := (isBoundary_iff _ _).mp be
    have hm : ∃ m, a2 = a1 ++ m ∧ b1 = m ++ b2 := by
      rcases List.append_eq_append_iff.mp (e1.symm.trans e2) with ⟨m, h1, h2⟩ | ⟨m, h1, h2⟩
      · exact ⟨m, h1, h2⟩
      · rw [h1, len8_append] at l1
        omega
    obtain ⟨m, rfl, rfl⟩ := hm
    have hh : headAt s sp = some (a1 ++ m) := by rw [e2, ← l2]; exact headAt_append _ _
    rw [hh, Option.bind_some, ← l1, tailAt_append, e2, whole_append, whole_append]
    rw [whole_none (s := a1), whole_all (s := m) (by omega) (by rw [len8_append] at l2; omega), whole_none (s := b2)]
    · simp
    · rintro a c b rfl ⟨h1, h2⟩
      have hc := Char.utf8Size_pos c
      have := d3 (0 + len8 (a1 ++ m) + len8 a + c.utf8Size) h2 (by omega)
      rw [(isBoundary_iff _ _).mpr ⟨a1 ++ m ++ a ++ [c], b, by rw [e2]; simp,
        by simp [len8_append, len8_cons, len8]; omega⟩] at this
      cases this
    · rintro a c b rfl ⟨h1, h2⟩
      have hc := Char.utf8Size_pos c
      have := u3 (0 + len8 a) h1 (by rw [← l1, len8_append, len8_cons]; omega)
      rw [(isBoundary_iff _ _).mpr ⟨a, c :: b ++ (m ++ b2), by rw [e1]; simp, by omega⟩] at this
      cases this

/-- The window before the cursor holds the whole characters among the last bytes. -/
theorem window_whole (before : Text) (size : Nat) :
    beforeWindow before size = some (whole (len8 before - size) (len8 before) 0 before) := slice_whole ..

/-- Of `aéb` the bytes from the middle of `é` on. -/
example : sliceAt ['a', 'é', 'b'] 2 9 = some ['b'] := by
  rw [slice_whole]; decide

end Tinymist.Complete
