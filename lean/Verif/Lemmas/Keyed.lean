import Verif.Lemmas.Util
import Verif.Model.Lock
namespace Tinymist.Lock

/-! Keyed lists: `upsert`, lookup by key and sorting. -/
variable {α : Type} {key : α → String}

theorem find_some_iff {l : List α} (h : (l.map key).Nodup) {k : String} {x : α} :
    l.find? (fun y => key y = k) = some x ↔ x ∈ l ∧ key x = k := by
  constructor
  · intro hf
    exact ⟨List.mem_of_find?_eq_some hf, by simpa using List.find?_some hf⟩
  · rintro ⟨hx, hk⟩
    cases hf : l.find? (fun y => key y = k) with
    | none => exact absurd (List.find?_eq_none.mp hf x hx) (by simpa using hk)
    | some y =>
      have hy := List.mem_of_find?_eq_some hf
      have hky : key y = k := by simpa using List.find?_some hf
      rw [Util.eq_of_nodup_map h hy hx (hky.trans hk.symm)]

theorem find_congr {l m : List α} (hl : (l.map key).Nodup) (hm : (m.map key).Nodup)
    (h : ∀ x, x ∈ l ↔ x ∈ m) (k : String) :
    l.find? (fun y => key y = k) = m.find? (fun y => key y = k) := by
  apply Option.ext
  intro x
  rw [find_some_iff hl, find_some_iff hm, h]

theorem mem_upsert {x y : α} {l : List α} (h : y ∈ upsert key x l) : y = x ∨ y ∈ l := by
  induction l with
  | nil => simp [upsert] at h; exact Or.inl h
  | cons z l ih =>
    simp only [upsert] at h
    split at h
    · rcases List.mem_cons.mp h with h | h
      · exact Or.inl h
      · exact Or.inr (List.mem_cons_of_mem _ h)
    · rcases List.mem_cons.mp h with h | h
      · exact Or.inr (by simp [h])
      · rcases ih h with h | h
        · exact Or.inl h
        · exact Or.inr (List.mem_cons_of_mem _ h)

theorem upsert_keys (x : α) (l : List α) :
    (upsert key x l).map key = if key x ∈ l.map key then l.map key else l.map key ++ [key x] := by
  induction l with
  | nil => simp [upsert]
  | cons z l ih =>
    by_cases h : key z = key x
    · simp [upsert, h]
    · have h' : key x ≠ key z := fun e => h e.symm
      simp only [upsert, if_neg h, List.map_cons, ih, List.mem_cons, h', false_or]
      split <;> simp

theorem upsert_nodup {x : α} {l : List α} (h : (l.map key).Nodup) : ((upsert key x l).map key).Nodup := by
  rw [upsert_keys]
  split
  · exact h
  · rename_i hn
    refine List.nodup_append.mpr ⟨h, by simp, ?_⟩
    intro a ha b hb e
    rw [List.mem_singleton.mp hb] at e
    exact hn (e ▸ ha)

theorem find_upsert (x : α) (l : List α) (k : String) :
    (upsert key x l).find? (fun y => key y = k) =
      if key x = k then some x else l.find? (fun y => key y = k) := by
  induction l with
  | nil => by_cases h : key x = k <;> simp [upsert, h]
  | cons z l ih =>
    simp only [upsert]
    by_cases hz : key z = key x
    · rw [if_pos hz]
      by_cases h : key x = k
      · simp [h]
      · have : key z ≠ k := fun e => h (hz.symm.trans e)
        simp [h, this]
    · rw [if_neg hz]
      by_cases h : key x = k
      · have : key z ≠ k := fun e => hz (e.trans h.symm)
        simp only [List.find?_cons, this, decide_false]
        simp [ih, h]
      · rw [List.find?_cons, List.find?_cons, ih, if_neg h]; simp [h]

theorem foldl_upsert_nodup (xs : List α) {l : List α} (h : (l.map key).Nodup) :
    ((xs.foldl (fun l x => upsert key x l) l).map key).Nodup := by
  induction xs generalizing l with
  | nil => exact h
  | cons x xs ih => exact ih (upsert_nodup h)

theorem find_foldl_upsert (xs : List α) (l : List α) (k : String) :
    (xs.foldl (fun l x => upsert key x l) l).find? (fun y => key y = k) =
      (xs.reverse.find? (fun y => key y = k)).or (l.find? (fun y => key y = k)) := by
  induction xs generalizing l with
  | nil => simp
  | cons x xs ih =>
    rw [List.foldl_cons, ih, find_upsert, List.reverse_cons, List.find?_append]
    cases xs.reverse.find? (fun y => key y = k) with
    | some y => simp
    | none => by_cases h : key x = k <;> simp [h]

theorem mem_foldl_upsert {xs : List α} {l : List α} {y : α}
    (h : y ∈ xs.foldl (fun l x => upsert key x l) l) : y ∈ xs ∨ y ∈ l := by
  induction xs generalizing l with
  | nil => exact Or.inr h
  | cons x xs ih =>
    rcases ih h with h | h
    · exact Or.inl (List.mem_cons_of_mem _ h)
    · rcases mem_upsert h with h | h
      · exact Or.inl (by simp [h])
      · exact Or.inr h

theorem ext_of_find {l m : List α} (hl : (l.map key).Nodup) (hm : (m.map key).Nodup)
    (h : ∀ k, l.find? (fun y => key y = k) = m.find? (fun y => key y = k)) (x : α) : x ∈ l ↔ x ∈ m := by
  have h1 := find_some_iff hl (k := key x) (x := x)
  have h2 := find_some_iff hm (k := key x) (x := x)
  rw [h (key x)] at h1
  constructor
  · intro hx; exact (h2.mp (h1.mpr ⟨hx, rfl⟩)).1
  · intro hx; exact (h1.mp (h2.mpr ⟨hx, rfl⟩)).1

theorem nodup_of_map {l : List α} (h : (l.map key).Nodup) : l.Nodup := by
  induction l with
  | nil => simp
  | cons x l ih =>
    rw [List.map_cons, List.nodup_cons] at h
    exact List.nodup_cons.mpr ⟨fun hm => h.1 (List.mem_map_of_mem hm), ih h.2⟩

end Tinymist.Lock
