import Verif.Spec.FontSummary

/-!
# The summary of a font family (C134)
-/

namespace Tinymist.FontSummary

open Spec

theorem le_trans (a b c : Variant) : Variant.le a b = true → Variant.le b c = true → Variant.le a c = true := by
  simp only [Variant.le, Bool.or_eq_true, Bool.and_eq_true, decide_eq_true_eq]
  omega

theorem le_total (a b : Variant) : (Variant.le a b || Variant.le b a) = true := by
  simp only [Variant.le, Bool.or_eq_true, Bool.and_eq_true, decide_eq_true_eq]
  omega

/-- What the loop has found for the variants it has gone through. -/
structure Found (done : List Variant) (a : Acc) : Prop where
  italic : a.italic = true ↔ ∃ v ∈ done, v.style = .italic
  min_le : ∀ v ∈ done, a.min ≤ v.weight
  min_mem : done ≠ [] → ∃ v ∈ done, v.weight = a.min
  max_last : ∀ v, done.getLast? = some v → a.max = v.weight
  min_top : done = [] → a.min = 65535

theorem step_found {done : List Variant} {a : Acc} {v : Variant} (hv : v.weight ≤ 65535) (h : Found done a) :
    Found (done ++ [v]) (step a v) := by
  have hmin : (step a v).min = Nat.min a.min v.weight := rfl
  refine ⟨?_, ?_, ?_, ?_, ?_⟩
  · rw [step]
    simp only [Bool.or_eq_true, h.italic, beq_iff_eq]
    constructor
    · rintro (⟨u, hu, hs⟩ | hs)
      · exact ⟨u, by simp [hu], hs⟩
      · exact ⟨v, by simp, hs⟩
    · rintro ⟨u, hu, hs⟩
      rcases List.mem_append.mp hu with hu | hu
      · exact .inl ⟨u, hu, hs⟩
      · rw [List.mem_singleton.mp hu] at hs
        exact .inr hs
  · intro u hu
    rw [hmin]
    rcases List.mem_append.mp hu with hu | hu
    · exact Nat.le_trans (Nat.min_le_left ..) (h.min_le u hu)
    · rw [List.mem_singleton.mp hu]
      exact Nat.min_le_right ..
  · intro _
    rw [hmin]
    by_cases hle : v.weight ≤ a.min
    · exact ⟨v, by simp, (Nat.min_eq_right hle).symm⟩
    · have hlt : a.min < v.weight := by omega
      rw [show Nat.min a.min v.weight = a.min from Nat.min_eq_left (by omega)]
      by_cases hd : done = []
      · have := h.min_top hd
        omega
      · obtain ⟨u, hu, hw⟩ := h.min_mem hd
        exact ⟨u, by simp [hu], hw⟩
  · intro u hu
    rw [List.getLast?_concat] at hu
    cases hu
    exact Nat.max_eq_right (Nat.min_le_right ..)
  · intro h0
    simp at h0

theorem loop_found (l : List Variant) (hl : ∀ v ∈ l, v.weight ≤ 65535) (done : List Variant) (a : Acc) (h : Found done a) :
    Found (done ++ l) (l.foldl step a) := by
  induction l generalizing done a with
  | nil => rw [List.append_nil]; exact h
  | cons v l ih =>
    have := ih (fun u hu => hl u (.tail _ hu)) (done ++ [v]) (step a v) (step_found (hl v (.head _)) h)
    rw [List.append_assoc] at this
    exact this

theorem collect_found (l : List Variant) (hl : ∀ v ∈ l, v.weight ≤ 65535) : Found (l.mergeSort Variant.le) (collect l) := by
  have := loop_found (l.mergeSort Variant.le) (fun v hv => hl v (List.mem_mergeSort.mp hv)) [] ⟨false, 65535, 0⟩
    ⟨by simp, by simp, by simp, by simp, by simp⟩
  rw [List.nil_append] at this
  exact this

/-- The last of the sorted variants is not before any other. -/
theorem last_greatest {l : List Variant} {v : Variant} (h : (l.mergeSort Variant.le).getLast? = some v) :
    ∀ u ∈ l, Variant.le u v = true ∨ u = v := by
  intro u hu
  have hs := List.pairwise_mergeSort (le := Variant.le) le_trans le_total l
  obtain ⟨pre, hp⟩ := List.getLast?_eq_some_iff.mp h
  rw [hp, List.pairwise_append] at hs
  have hm : u ∈ pre ++ [v] := by
    rw [← hp]
    exact List.mem_mergeSort.mpr hu
  rcases List.mem_append.mp hm with hm | hm
  · exact .inl (hs.2.2 u hm v (by simp))
  · exact .inr (List.mem_singleton.mp hm)

theorem style_last {l : List Variant} {v : Variant} (hv : v ∈ l) (h : ∀ u ∈ l, u.style.rank ≤ v.style.rank) :
    v.style = lastStyle l := by
  rw [lastStyle]
  split
  · rename_i ho
    obtain ⟨u, hu, he⟩ := ho
    have := h u hu
    rw [he] at this
    cases hs : v.style <;> rw [hs] at this <;> first | rfl | exact absurd this (by decide)
  · rename_i ho
    split
    · rename_i hi
      obtain ⟨u, hu, he⟩ := hi
      have := h u hu
      rw [he] at this
      cases hs : v.style with
      | normal => rw [hs] at this; exact absurd this (by decide)
      | italic => rfl
      | oblique => exact (ho ⟨v, hv, hs⟩).elim
    · rename_i hi
      cases hs : v.style with
      | normal => rfl
      | italic => exact (hi ⟨v, hv, hs⟩).elim
      | oblique => exact (ho ⟨v, hv, hs⟩).elim

/-- C134: the summary of a family gives the number of its variants, its least weight, and whether it has italics; and as
the greatest weight it gives the greatest weight of the variants of the last style.

Partial: the greatest weight of the whole family is meant (`bold_not_said`). -/
theorem summary_partial (l : List Variant) (hne : l ≠ []) (hl : ∀ v ∈ l, v.weight ≤ 65535) :
    ∃ least greatest italics, summarize l = text l.length least greatest italics ∧ Least l least ∧
      (italics = true ↔ ∃ v ∈ l, v.style = .italic) ∧
      ∃ v ∈ l, v.weight = greatest ∧ v.style = lastStyle l ∧ ∀ u ∈ l, u.style = v.style → u.weight ≤ greatest := by
  have h := collect_found l hl
  have hne' : l.mergeSort Variant.le ≠ [] := by
    intro h0
    have := (List.mergeSort_perm l Variant.le).length_eq
    rw [h0] at this
    exact hne (List.eq_nil_of_length_eq_zero this.symm)
  refine ⟨(collect l).min, (collect l).max, (collect l).italic, ?_, ⟨?_, ?_⟩, ?_, ?_⟩
  · rw [summarize, text]
    cases (collect l).italic <;> simp [String.append_assoc]
  · obtain ⟨v, hv, hw⟩ := h.min_mem hne'
    exact ⟨v, List.mem_mergeSort.mp hv, hw⟩
  · exact fun v hv => h.min_le v (List.mem_mergeSort.mpr hv)
  · rw [h.italic]
    exact ⟨fun ⟨v, hv, hs⟩ => ⟨v, List.mem_mergeSort.mp hv, hs⟩, fun ⟨v, hv, hs⟩ => ⟨v, List.mem_mergeSort.mpr hv, hs⟩⟩
  · cases hlast : (l.mergeSort Variant.le).getLast? with
    | none => exact absurd (List.getLast?_eq_none_iff.mp hlast) hne'
    | some v =>
      have hg := last_greatest hlast
      refine ⟨v, List.mem_mergeSort.mp (List.mem_of_getLast? hlast), (h.max_last v hlast).symm, ?_, ?_⟩
      · refine style_last (List.mem_mergeSort.mp (List.mem_of_getLast? hlast)) ?_
        intro u hu
        rcases hg u hu with hle | rfl
        · simp only [Variant.le, Bool.or_eq_true, Bool.and_eq_true, decide_eq_true_eq] at hle
          omega
        · exact Nat.le_refl _
      · intro u hu hs
        rw [h.max_last v hlast]
        rcases hg u hu with hle | rfl
        · simp only [Variant.le, Bool.or_eq_true, Bool.and_eq_true, decide_eq_true_eq, hs] at hle
          omega
        · exact Nat.le_refl _

/-- C134: for a family with one style the summary is right. -/
theorem summary_one_style (l : List Variant) (hne : l ≠ []) (hl : ∀ v ∈ l, v.weight ≤ 65535)
    (hs : ∀ u ∈ l, ∀ v ∈ l, u.style = v.style) :
    ∃ least greatest italics, summarize l = text l.length least greatest italics ∧ Least l least ∧ Greatest l greatest ∧
      (italics = true ↔ ∃ v ∈ l, v.style = .italic) := by
  obtain ⟨least, greatest, italics, h1, h2, h3, v, hv, h4, -, h5⟩ := summary_partial l hne hl
  exact ⟨least, greatest, italics, h1, h2, ⟨⟨v, hv, h4⟩, fun u hu => h5 u hu (hs u hu v hv)⟩, h3⟩

/-- C134, what does not hold: with an italic variant that is lighter than a normal one, the greatest weight is not given:
of a family with weights `r` and `b` and an italic of weight `r` it is said that it has the weight `r` only. -/
theorem bold_not_said (r b s : Nat) (h : r < b) (hb : b ≤ 65535) :
    summarize [⟨.normal, r, s⟩, ⟨.normal, b, s⟩, ⟨.italic, r, s⟩] = text 3 r r true ∧
    Greatest [⟨.normal, r, s⟩, ⟨.normal, b, s⟩, ⟨.italic, r, s⟩] b := by
  have hsort : ([⟨.normal, r, s⟩, ⟨.normal, b, s⟩, ⟨.italic, r, s⟩] : List Variant).mergeSort Variant.le =
      [⟨.normal, r, s⟩, ⟨.normal, b, s⟩, ⟨.italic, r, s⟩] := by
    apply List.mergeSort_of_pairwise
    simp [Variant.le, Style.rank, h]
  refine ⟨?_, ⟨⟨.normal, b, s⟩, by simp, rfl⟩, ?_⟩
  · have hc : collect [⟨.normal, r, s⟩, ⟨.normal, b, s⟩, ⟨.italic, r, s⟩] = ⟨true, r, r⟩ := by
      rw [collect, hsort]
      simp only [List.foldl_cons, List.foldl_nil, step, Acc.mk.injEq]
      refine ⟨by decide, ?_, ?_⟩
      · rw [show Nat.min 65535 r = r from Nat.min_eq_right (by omega), show Nat.min r b = r from Nat.min_eq_left (by omega)]
        exact Nat.min_self r
      · rw [show Nat.min 65535 r = r from Nat.min_eq_right (by omega), show Nat.min r b = r from Nat.min_eq_left (by omega),
          show Nat.min r r = r from Nat.min_self r]
        exact Nat.max_self r
    rw [summarize, hc, text]
    simp
  · intro v hv
    simp only [List.mem_cons, List.not_mem_nil, or_false] at hv
    rcases hv with rfl | rfl | rfl <;> simp only <;> omega

/-- Such a family: regular, bold and italic. -/
example : summarize [⟨.normal, 400, 1000⟩, ⟨.normal, 700, 1000⟩, ⟨.italic, 400, 1000⟩] = text 3 400 400 true :=
  (bold_not_said 400 700 1000 (by decide) (by decide)).1

end Tinymist.FontSummary
