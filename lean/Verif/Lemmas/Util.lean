/-! General list facts used by several proofs. -/
namespace Tinymist.Util

theorem nodup_eraseDups {α : Type} [BEq α] [LawfulBEq α] (l : List α) : l.eraseDups.Nodup := by
  generalize hn : l.length = n
  induction n using Nat.strongRecOn generalizing l with
  | _ n ih =>
    cases l with
    | nil => simp
    | cons a l =>
      rw [List.eraseDups_cons, List.nodup_cons]
      refine ⟨?_, ?_⟩
      · rw [List.mem_eraseDups]; simp
      · apply ih _ ?_ _ rfl
        have := List.length_filter_le (fun b => !b == a) l
        simp at hn; omega

/-- Induction on a list from its end. -/
theorem reverseInd {α : Type _} {P : List α → Prop} (l : List α) (nil : P [])
    (append_singleton : ∀ (l : List α) (a : α), P l → P (l ++ [a])) : P l := by
  have h : ∀ l : List α, P l.reverse := by
    intro l
    induction l with
    | nil => exact nil
    | cons a l ih => rw [List.reverse_cons]; exact append_singleton _ _ ih
  rw [← List.reverse_reverse l]
  exact h _

theorem nodup_map_on {α β : Type _} {f : α → β} {l : List α} (h : l.Nodup)
    (hf : ∀ a ∈ l, ∀ b ∈ l, f a = f b → a = b) : (l.map f).Nodup := by
  induction l with
  | nil => simp
  | cons a l ih =>
    rw [List.nodup_cons] at h
    rw [List.map_cons, List.nodup_cons]
    refine ⟨?_, ih h.2 fun x hx y hy => hf x (List.mem_cons_of_mem _ hx) y (List.mem_cons_of_mem _ hy)⟩
    intro hm
    obtain ⟨b, hb, e⟩ := List.mem_map.mp hm
    exact h.1 (hf b (List.mem_cons_of_mem _ hb) a (List.mem_cons_self ..) e ▸ hb)

theorem eq_of_nodup_map {α β : Type _} {f : α → β} {l : List α} (h : (l.map f).Nodup) {a b : α}
    (ha : a ∈ l) (hb : b ∈ l) (e : f a = f b) : a = b := by
  induction l with
  | nil => cases ha
  | cons x l ih =>
    rw [List.map_cons, List.nodup_cons] at h
    rcases List.mem_cons.mp ha with rfl | ha
    · rcases List.mem_cons.mp hb with rfl | hb
      · rfl
      · exact (h.1 (List.mem_map.mpr ⟨b, hb, e.symm⟩)).elim
    · rcases List.mem_cons.mp hb with rfl | hb
      · exact (h.1 (List.mem_map.mpr ⟨a, ‹_›, e⟩)).elim
      · exact ih h.2 ha hb

theorem count_eq_one {α : Type _} [BEq α] [LawfulBEq α] {l : List α} (h : l.Nodup) {a : α}
    (ha : a ∈ l) : l.count a = 1 := by
  have h1 := List.nodup_iff_count.mp h a
  have h2 := List.count_pos_iff.mpr ha
  omega

end Tinymist.Util
