import Verif.Spec.Bib

namespace Tinymist.Bib

open Position (Text len8)

/-! ## The loader -/

mutual
theorem deep_value : ∀ (y : Yaml) (l : Loader), 2 ≤ l.depth → y.events.foldl onEvent l = l
  | .scalar mark s, l, h => by
    simp only [Yaml.events, List.foldl_cons, List.foldl_nil, onEvent]
    rw [if_neg (by omega)]
  | .alias mark, l, h => by simp [Yaml.events, onEvent]
  | .sequence start cs stop, l, h => by
    simp only [Yaml.events, List.foldl_cons, List.foldl_append, List.foldl_nil, onEvent]
    exact deep_values cs l h
  | .mapping start cs stop, l, h => by
    simp only [Yaml.events, List.foldl_cons, List.foldl_append, List.foldl_nil]
    rw [show onEvent l (.mappingStart, start) = { l with depth := l.depth + 1 } by
      simp only [onEvent]; rw [if_neg (by omega)]]
    rw [deep_values cs _ (by simp only; omega)]
    simp only [onEvent]
    rw [if_neg (by omega)]
    simp

theorem deep_values : ∀ (ys : List Yaml) (l : Loader), 2 ≤ l.depth → (eventsOf ys).foldl onEvent l = l
  | [], l, _ => by simp [eventsOf]
  | y :: ys, l, h => by
    rw [eventsOf, List.foldl_append, deep_value y l h, deep_values ys l h]
end

theorem eventsOf_append (a b : List Yaml) : eventsOf (a ++ b) = eventsOf a ++ eventsOf b := by
  induction a with
  | nil => simp [eventsOf]
  | cons y a ih => simp [eventsOf, ih]

/-- What the loader keeps of an item. -/
def Item.content (i : Item) : Spanned × Nat × Nat := (⟨i.key, i.mark, i.mark + i.key.length⟩, i.mark, i.stop)

theorem load_item (i : Item) (key : Option Spanned) (c : List (Spanned × Nat × Nat)) :
    (eventsOf i.pair).foldl onEvent ⟨1, none, key, c⟩ = ⟨1, none, none, c ++ [i.content]⟩ := by
  simp only [Item.pair, eventsOf, Yaml.events, List.append_nil, List.foldl_append, List.foldl_cons, List.foldl_nil]
  rw [show onEvent ⟨1, none, key, c⟩ (.scalar i.key, i.mark) = ⟨1, none, some ⟨i.key, i.mark, i.mark + i.key.length⟩, c⟩ from rfl]
  rw [show onEvent ⟨1, none, some ⟨i.key, i.mark, i.mark + i.key.length⟩, c⟩ (.mappingStart, i.start) =
    ⟨2, some ⟨i.key, i.mark, i.mark + i.key.length⟩, none, c⟩ from rfl]
  rw [deep_values _ _ (by simp)]
  rfl

theorem load_items (items : List Item) (c : List (Spanned × Nat × Nat)) (key : Option Spanned) :
    ∃ k, (eventsOf (items.flatMap Item.pair)).foldl onEvent ⟨1, none, key, c⟩ = ⟨1, none, k, c ++ items.map Item.content⟩ := by
  induction items generalizing c key with
  | nil => exact ⟨key, by simp [eventsOf]⟩
  | cons i items ih =>
    rw [List.flatMap_cons, eventsOf_append, List.foldl_append, load_item]
    obtain ⟨k, h⟩ := ih (c ++ [i.content]) none
    exact ⟨k, by rw [h]; simp⟩

theorem load_document (items : List Item) (stop : Nat) : (load (document items stop)).content = items.map Item.content := by
  simp only [load, document, Yaml.events, List.foldl_cons, List.foldl_append, List.foldl_nil]
  rw [show onEvent ⟨0, none, none, []⟩ (.other, 0) = ⟨0, none, none, []⟩ from rfl,
    show onEvent ⟨0, none, none, []⟩ (.mappingStart, 0) = ⟨1, none, none, []⟩ from rfl]
  obtain ⟨k, h⟩ := load_items items [] none
  rw [h]
  simp [onEvent]

/-! ## Characters and bytes -/

theorem dedup_mem (l : List Nat) (x : Nat) : x ∈ dedup l ↔ x ∈ l := by
  fun_induction dedup l with
  | case1 a l ih => rw [ih]; simp
  | case2 a b l h ih => rw [List.mem_cons, ih, List.mem_cons (b := a)]
  | case3 l h => rfl

theorem dedup_sorted (l : List Nat) (h : l.Pairwise (· ≤ ·)) : (dedup l).Pairwise (· < ·) := by
  fun_induction dedup l with
  | case1 a l ih =>
    exact ih (List.Pairwise.sublist ((List.sublist_cons_self a l).cons_cons a) h)
  | case2 a b l hne ih =>
    rw [List.pairwise_cons] at h ⊢
    refine ⟨fun x hx => ?_, ih h.2⟩
    rw [dedup_mem] at hx
    have h1 := h.1 b (List.mem_cons_self ..)
    rcases List.mem_cons.mp hx with rfl | hx
    · omega
    · have := (List.pairwise_cons.mp h.2).1 x hx
      omega
  | case3 l hl =>
    match l, hl with
    | [], _ => exact List.Pairwise.nil
    | [a], _ => simp
    | a :: b :: l, hl => exact (hl a b l rfl).elim

theorem offsets_sorted (c : List (Spanned × Nat × Nat)) : (offsets c).Pairwise (· < ·) := by
  apply dedup_sorted
  have := List.pairwise_mergeSort (le := fun a b : Nat => decide (a ≤ b)) (by simp; omega) (by simp; omega)
    (c.flatMap fun x => [x.1.start, x.1.stop, x.2.1, x.2.2])
  simpa using this

theorem offsets_mem (c : List (Spanned × Nat × Nat)) (x : Nat) :
    x ∈ offsets c ↔ ∃ e ∈ c, x = e.1.start ∨ x = e.1.stop ∨ x = e.2.1 ∨ x = e.2.2 := by
  rw [offsets, dedup_mem, List.mem_mergeSort, List.mem_flatMap]
  simp

theorem walk_lookup (cs : Text) : ∀ (i b : Nat) (os : List Nat), os.Pairwise (· < ·) → (∀ o ∈ os, i ≤ o) → ∀ k,
    (walk cs i b os).lookup k = if k ∈ os ∧ k < i + cs.length then some (b + bytes (cs.take (k - i))) else none := by
  induction cs with
  | nil =>
    intro i b os _ hi k
    rw [walk, if_neg]
    · rfl
    · rintro ⟨h1, h2⟩
      have := hi k h1
      simp at h2; omega
  | cons c cs ih =>
    intro i b os hs hi k
    cases os with
    | nil => rw [walk]; simp
    | cons o os =>
      rw [walk]
      rw [List.pairwise_cons] at hs
      split
      · rename_i e
        subst e
        rw [List.lookup_cons]
        by_cases hk : k = i
        · subst hk
          simp [bytes]
        · rw [show (k == i) = false by simpa using hk]
          simp only
          rw [ih _ _ _ hs.2 (fun x hx => hs.1 x hx)]
          by_cases hm : k ∈ os
          · have := hs.1 k hm
            simp only [List.mem_cons, hk, hm, or_true, true_and, List.length_cons]
            obtain ⟨j, rfl⟩ : ∃ j, k = i + 1 + j := ⟨k - (i + 1), by omega⟩
            rw [show i + 1 + j - (i + 1) = j by omega, show i + 1 + j - i = j + 1 by omega, List.take_succ_cons]
            simp only [bytes, List.map_cons, List.sum_cons]
            congr 1
            · simp; omega
            · congr 1; omega
          · simp [hk, hm]
      · rename_i hne
        have hio : i < o := by have := hi o (List.mem_cons_self ..); omega
        rw [ih _ _ _ (List.pairwise_cons.mpr hs) (fun x hx => by
          rcases List.mem_cons.mp hx with rfl | hx
          · exact hio
          · have := hs.1 x hx; omega)]
        by_cases hm : k ∈ o :: os
        · have hk : i < k := by
            rcases List.mem_cons.mp hm with rfl | hx
            · exact hio
            · have := hs.1 k hx; omega
          simp only [hm, true_and, List.length_cons]
          obtain ⟨j, rfl⟩ : ∃ j, k = i + 1 + j := ⟨k - (i + 1), by omega⟩
          rw [show i + 1 + j - (i + 1) = j by omega, show i + 1 + j - i = j + 1 by omega, List.take_succ_cons]
          simp only [bytes, List.map_cons, List.sum_cons]
          congr 1
          · simp; omega
          · congr 1; omega
        · rw [if_neg (fun h => hm h.1), if_neg (fun h => hm h.1)]

/-- A number of characters that is asked for is resolved to the bytes before it, if the text is long enough. -/
theorem charMap_lookup (text : Text) (c : List (Spanned × Nat × Nat)) (k : Nat) :
    (charMap text (offsets c)).lookup k =
      if k ∈ offsets c ∧ k ≤ text.length then some (bytes (text.take k)) else none := by
  rw [charMap, walk_lookup _ 0 0 _ (offsets_sorted c) (fun _ _ => Nat.zero_le _)]
  by_cases h : k ≤ text.length
  · simp only [Nat.zero_add, Nat.sub_zero, List.length_append, List.length_singleton, Nat.lt_succ_of_le h, h, and_true,
      List.take_append_of_le_length h]
  · rw [if_neg (by simp; omega), if_neg (by simp [h])]

end Tinymist.Bib
