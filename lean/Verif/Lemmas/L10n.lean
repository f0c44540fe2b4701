import Verif.Spec.L10n
import Verif.Lemmas.Pages
/-! # Localisation: lemmas -/
namespace Tinymist.L10n
open Pages

theorem fillN_enough (args : List (Str × Str)) (n : Nat) :
    ∀ (k : Nat) (m : Str), m.length ≤ n → n ≤ k → fillN args k m = fillN args n m := by
  induction n with
  | zero =>
    intro k m hm _
    have : m = [] := List.eq_nil_of_length_eq_zero (Nat.le_zero.mp hm)
    subst this
    cases k <;> rfl
  | succ n ih =>
    intro k m hm hk
    cases k with
    | zero => omega
    | succ k =>
      cases m with
      | nil => rfl
      | cons c cs =>
        simp only [List.length_cons] at hm
        rw [fillN, fillN]
        split
        · rw [ih k _ ?_ (by omega)]
          have h1 : (cs.dropWhile (· ≠ '}')).length ≤ cs.length := (List.dropWhile_suffix _).length_le
          rw [List.length_drop]
          omega
        · rw [ih k cs (by omega) (by omega)]

theorem fill_nil (args : List (Str × Str)) : fill args [] = [] := rfl

theorem fill_text (args : List (Str × Str)) {c : Char} (hc : c ≠ '{') (cs : Str) :
    fill args (c :: cs) = c :: fill args cs := by
  rw [fill, List.length_cons, fillN, if_neg hc]; rfl

theorem fill_brace (args : List (Str × Str)) (cs : Str) :
    fill args ('{' :: cs) = resolve args (cs.takeWhile (· ≠ '}')) ++ fill args ((cs.dropWhile (· ≠ '}')).drop 2) := by
  rw [fill, List.length_cons, fillN, if_pos rfl, fill]
  congr 1
  apply fillN_enough
  · exact Nat.le_refl _
  · have h1 : (cs.dropWhile (· ≠ '}')).length ≤ cs.length := (List.dropWhile_suffix _).length_le
    rw [List.length_drop]
    omega

theorem span_name {name : Str} (hn : '}' ∉ name) (rest : Str) :
    (name ++ '}' :: rest).takeWhile (· ≠ '}') = name ∧ (name ++ '}' :: rest).dropWhile (· ≠ '}') = '}' :: rest := by
  induction name with
  | nil => constructor <;> simp
  | cons c name ih =>
    have hc : c ≠ '}' := fun e => hn (by simp [e])
    have := ih fun h => hn (List.mem_cons_of_mem _ h)
    rw [List.cons_append, List.takeWhile_cons, List.dropWhile_cons]
    simp only [ne_eq, hc, not_false_eq_true, decide_true, if_true]
    exact ⟨by rw [this.1], this.2⟩

theorem span_unclosed {name : Str} (hn : '}' ∉ name) :
    name.takeWhile (· ≠ '}') = name ∧ name.dropWhile (· ≠ '}') = [] := by
  induction name with
  | nil => constructor <;> rfl
  | cons c name ih =>
    have hc : c ≠ '}' := fun e => hn (by simp [e])
    have := ih fun h => hn (List.mem_cons_of_mem _ h)
    rw [List.takeWhile_cons, List.dropWhile_cons]
    simp only [ne_eq, hc, not_false_eq_true, decide_true, if_true]
    exact ⟨by rw [this.1], this.2⟩

theorem fill_hole (args : List (Str × Str)) {name : Str} (hn : '}' ∉ name) (rest : Str) :
    fill args ('{' :: name ++ '}' :: rest) = resolve args name ++ fill args (rest.drop 1) := by
  rw [List.cons_append, fill_brace, (span_name hn rest).1, (span_name hn rest).2]
  rfl

theorem fill_unclosed (args : List (Str × Str)) {name : Str} (hn : '}' ∉ name) :
    fill args ('{' :: name) = resolve args name := by
  rw [fill_brace, (span_unclosed hn).1, (span_unclosed hn).2]
  simp [fill_nil]

theorem fill_append (args : List (Str × Str)) {t : Str} (ht : '{' ∉ t) (rest : Str) :
    fill args (t ++ rest) = t ++ fill args rest := by
  induction t with
  | nil => rfl
  | cons c t ih =>
    rw [List.cons_append, fill_text args (fun e => ht (by simp [e])), ih fun h => ht (List.mem_cons_of_mem _ h)]
    rfl

theorem fill_plain (args : List (Str × Str)) {t : Str} (ht : '{' ∉ t) : fill args t = t := by
  have := fill_append args ht []
  rwa [List.append_nil, fill_nil, List.append_nil] at this

theorem name_unique {n n' r r' : Str} (hn : '}' ∉ n) (hn' : '}' ∉ n') (e : n ++ '}' :: r = n' ++ '}' :: r') :
    n = n' ∧ r = r' := by
  have h1 := span_name hn r
  have h2 := span_name hn' r'
  rw [e] at h1
  have a := h1.1.symm.trans h2.1
  have b := h1.2.symm.trans h2.2
  simp at b
  exact ⟨a, b⟩

theorem filled_plain (args : List (Str × Str)) {t : Str} (ht : '{' ∉ t) : Filled args t t := by
  induction t with
  | nil => exact .nil
  | cons c t ih => exact .text (fun e => ht (by simp [e])) (ih fun h => ht (List.mem_cons_of_mem _ h))

theorem filled_append (args : List (Str × Str)) {t : Str} (ht : '{' ∉ t) {rest out : Str} (h : Filled args rest out) :
    Filled args (t ++ rest) (t ++ out) := by
  induction t with
  | nil => exact h
  | cons c t ih => exact .text (fun e => ht (by simp [e])) (ih fun h => ht (List.mem_cons_of_mem _ h))

/-- A message has one meaning. -/
theorem filled_unique {args : List (Str × Str)} {m o : Str} (h : Filled args m o) : ∀ {o'}, Filled args m o' → o = o' := by
  induction h with
  | nil => intro o' h'; cases h'; rfl
  | text hc _ ih =>
    intro o' h'
    cases h' with
    | text _ h' => rw [ih h']
    | hole => exact (hc rfl).elim
    | unknown => exact (hc rfl).elim
    | unclosed => exact (hc rfl).elim
  | hole hn hl _ ih =>
    intro o' h'
    generalize hm : '{' :: _ ++ '}' :: _ = m at h'
    cases h' with
    | nil => simp at hm
    | text hc' _ => simp at hm; exact (hc' hm.1.symm).elim
    | hole hn' hl' h' =>
      simp only [List.cons_append, List.cons.injEq, true_and] at hm
      obtain ⟨rfl, rfl⟩ := name_unique hn hn' hm
      rw [hl] at hl'
      cases hl'
      rw [ih h']
    | unknown hn' hl' h' =>
      simp only [List.cons_append, List.cons.injEq, true_and] at hm
      obtain ⟨rfl, rfl⟩ := name_unique hn hn' hm
      rw [hl] at hl'
      cases hl'
    | unclosed hn' =>
      simp only [List.cons_append, List.cons.injEq, true_and] at hm
      exact (hn' (by rw [← hm]; simp)).elim
  | unknown hn hl _ ih =>
    intro o' h'
    generalize hm : '{' :: _ ++ '}' :: _ = m at h'
    cases h' with
    | nil => simp at hm
    | text hc' _ => simp at hm; exact (hc' hm.1.symm).elim
    | hole hn' hl' h' =>
      simp only [List.cons_append, List.cons.injEq, true_and] at hm
      obtain ⟨rfl, rfl⟩ := name_unique hn hn' hm
      rw [hl] at hl'
      cases hl'
    | unknown hn' hl' h' =>
      simp only [List.cons_append, List.cons.injEq, true_and] at hm
      obtain ⟨rfl, rfl⟩ := name_unique hn hn' hm
      rw [ih h']
    | unclosed hn' =>
      simp only [List.cons_append, List.cons.injEq, true_and] at hm
      exact (hn' (by rw [← hm]; simp)).elim
  | unclosed hn =>
    intro o' h'
    generalize hm : '{' :: _ = m at h'
    cases h' with
    | nil => simp at hm
    | text hc' _ => simp at hm; exact (hc' hm.1.symm).elim
    | hole hn' hl' h' =>
      simp only [List.cons_append, List.cons.injEq, true_and] at hm
      exact (hn (by rw [hm]; simp)).elim
    | unknown hn' hl' h' =>
      simp only [List.cons_append, List.cons.injEq, true_and] at hm
      exact (hn (by rw [hm]; simp)).elim
    | unclosed hn' =>
      rfl

end Tinymist.L10n
