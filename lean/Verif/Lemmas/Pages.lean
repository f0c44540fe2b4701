import Verif.Spec.Pages
import Verif.Lemmas.RustNum
namespace Tinymist.Pages
open RustNum

/-! ## Numbers -/

theorem digitVal_ten (c : Char) : digitVal 10 c = if isDigit c then some (c.toNat - '0'.toNat) else none := by
  simp only [digitVal, isDigit, Bool.and_eq_true, decide_eq_true_eq]
  have e0 : '0'.toNat = 48 := rfl
  have e9 : '9'.toNat = 57 := rfl
  have ea : 'a'.toNat = 97 := rfl
  have eA : 'A'.toNat = 65 := rfl
  by_cases h : '0'.toNat ≤ c.toNat ∧ c.toNat ≤ '9'.toNat
  · rw [if_pos h, if_pos h, if_pos (by omega)]
  · rw [if_neg h, if_neg h]
    split
    · rw [if_neg (by omega)]
    · split
      · rw [if_neg (by omega)]
      · simp

def valueFrom (acc : Nat) (s : List Char) : Nat := s.foldl (fun a c => a * 10 + (c.toNat - '0'.toNat)) acc

theorem le_valueFrom (acc : Nat) (s : List Char) : acc ≤ valueFrom acc s := by
  induction s generalizing acc with
  | nil => exact Nat.le_refl _
  | cons c s ih => exact Nat.le_trans (show acc ≤ acc * 10 + (c.toNat - '0'.toNat) by omega) (ih _)

theorem parseDigits_iff (max acc : Nat) (hacc : acc ≤ max) (s : List Char) (n : Nat) :
    parseDigits 10 max acc s = some n ↔ (∀ c ∈ s, isDigit c = true) ∧ valueFrom acc s = n ∧ n ≤ max := by
  induction s generalizing acc with
  | nil =>
    simp only [parseDigits, valueFrom, List.foldl_nil, Option.some.injEq, List.not_mem_nil, false_imp_iff,
      implies_true, true_and]
    constructor
    · rintro rfl; exact ⟨rfl, hacc⟩
    · exact fun h => h.1
  | cons c s ih =>
    simp only [parseDigits, digitVal_ten]
    cases hd : isDigit c with
    | false =>
      simp only [Bool.false_eq_true, if_false]
      constructor
      · intro h; cases h
      · intro h
        have := h.1 c (List.mem_cons_self ..)
        rw [hd] at this; cases this
    | true =>
      simp only [if_true]
      have hv : valueFrom acc (c :: s) = valueFrom (acc * 10 + (c.toNat - '0'.toNat)) s := rfl
      by_cases hle : acc * 10 + (c.toNat - '0'.toNat) ≤ max
      · rw [if_pos hle, ih _ hle, hv]
        constructor
        · rintro ⟨h1, h2⟩
          refine ⟨?_, h2⟩
          intro x hx
          rcases List.mem_cons.mp hx with rfl | hx
          · exact hd
          · exact h1 x hx
        · rintro ⟨h1, h2⟩
          exact ⟨fun x hx => h1 x (List.mem_cons_of_mem _ hx), h2⟩
      · rw [if_neg hle]
        constructor
        · intro h; cases h
        · rintro ⟨_, h2, h3⟩
          rw [hv] at h2
          have := le_valueFrom (acc * 10 + (c.toNat - '0'.toNat)) s
          omega

theorem parse_iff (max : Nat) (s : List Char) (n : Nat) :
    parse 10 max s = some n ↔
      ∃ ds, (s = ds ∨ s = '+' :: ds) ∧ ds ≠ [] ∧ (∀ c ∈ ds, isDigit c = true) ∧ value ds = n ∧ n ≤ max := by
  have key : ∀ ds, ds ≠ [] → parseDigits 10 max 0 ds = some n →
      ds ≠ [] ∧ (∀ c ∈ ds, isDigit c = true) ∧ value ds = n ∧ n ≤ max := by
    intro ds hne h
    obtain ⟨h1, h2, h3⟩ := (parseDigits_iff max 0 (Nat.zero_le _) ds n).mp h
    exact ⟨hne, h1, h2, h3⟩
  have key' : ∀ ds, (∀ c ∈ ds, isDigit c = true) ∧ value ds = n ∧ n ≤ max → parseDigits 10 max 0 ds = some n :=
    fun ds h => (parseDigits_iff max 0 (Nat.zero_le _) ds n).mpr h
  constructor
  · intro h
    unfold parse at h
    split at h
    · cases h
    · cases h
    · rename_i cs hcs
      exact ⟨cs, Or.inr rfl, key cs (by rintro rfl; exact hcs rfl) h⟩
    · rename_i h1 h2 h3
      exact ⟨s, Or.inl rfl, key s h1 h⟩
  · rintro ⟨ds, h1, h2, h3⟩
    rcases h1 with rfl | rfl
    · unfold parse
      split
      · exact (h2 rfl).elim
      · exact absurd (h3.1 '+' (by simp)) (by decide)
      · exact absurd (h3.1 '+' (by simp)) (by decide)
      · exact key' _ h3
    · unfold parse
      split
      · rename_i e; cases e
      · rename_i e; injection e with _ e; exact (h2 e).elim
      · rename_i e; injection e with _ e; subst e; exact key' _ h3
      · rename_i h5 h6; exact (h6 ds rfl).elim

theorem parsePageNumber_iff (s : List Char) (n : Nat) : parsePageNumber s = some n ↔ Numeral s n := by
  unfold parsePageNumber
  by_cases h0 : s = ['0']
  · rw [if_pos h0]
    constructor
    · intro h; cases h
    · rintro ⟨ds, h1, _, _, hv, hn, _⟩
      subst h0
      rcases h1 with rfl | h1
      · have : value ['0'] = 0 := by decide
        omega
      · cases h1
  · rw [if_neg h0]
    constructor
    · intro h
      split at h
      · cases h
      · rename_i hnz
        obtain ⟨ds, h1, h2, h3, h4, h5⟩ := (parse_iff _ _ _).mp h
        refine ⟨ds, h1, h2, h3, h4, ?_, h5⟩
        rcases Nat.eq_zero_or_pos n with rfl | hn
        · exact (hnz h).elim
        · exact hn
    · rintro ⟨ds, h1, h2, h3, h4, h5, h6⟩
      have := (parse_iff usizeMax s n).mpr ⟨ds, h1, h2, h3, h4, h6⟩
      rw [this]
      split
      · rename_i e; injection e with e; omega
      · rfl

/-! ## Blanks -/

theorem space_iff (c : Char) : isWhitespace c = true ↔ Space c := by
  simp only [isWhitespace, Space, Bool.or_eq_true, Bool.and_eq_true, decide_eq_true_eq, beq_iff_eq, List.mem_cons,
    List.not_mem_nil, or_false]
  omega


theorem digit_not_blank {c : Char} (h : isDigit c = true) : isWhitespace c = false := by
  simp only [isDigit, Bool.and_eq_true, decide_eq_true_eq] at h
  have e0 : '0'.toNat = 48 := rfl
  have e9 : '9'.toNat = 57 := rfl
  simp only [isWhitespace, Bool.or_eq_false_iff, Bool.and_eq_false_iff, decide_eq_false_iff_not, beq_eq_false_iff_ne]
  omega

theorem numeral_chars {t : List Char} {n : Nat} (h : Numeral t n) :
    t ≠ [] ∧ ∀ c ∈ t, isWhitespace c = false ∧ c ≠ '-' := by
  obtain ⟨ds, h1, h2, h3, _⟩ := h
  have hd : ∀ c ∈ ds, isWhitespace c = false ∧ c ≠ '-' := by
    intro c hc
    refine ⟨digit_not_blank (h3 c hc), ?_⟩
    rintro rfl
    exact absurd (h3 '-' hc) (by decide)
  rcases h1 with rfl | rfl
  · exact ⟨h2, hd⟩
  · refine ⟨by simp, ?_⟩
    intro c hc
    rcases List.mem_cons.mp hc with rfl | hc
    · decide
    · exact hd c hc

theorem dropWhile_blank {a t : List Char} (ha : Blank a) (ht : ∀ c, t.head? = some c → isWhitespace c = false) :
    (a ++ t).dropWhile isWhitespace = t := by
  induction a with
  | nil =>
    cases t with
    | nil => rfl
    | cons c t => rw [List.nil_append, List.dropWhile_cons, ht c rfl]; rfl
  | cons c a ih =>
    rw [List.cons_append, List.dropWhile_cons, (space_iff c).mpr (ha c (List.mem_cons_self ..))]
    exact ih fun c hc => ha c (List.mem_cons_of_mem _ hc)

theorem blank_reverse {b : List Char} (h : Blank b) : Blank b.reverse := fun c hc => h c (List.mem_reverse.mp hc)

theorem trim_eq {a t b : List Char} (ha : Blank a) (hb : Blank b) (ht : ∀ c ∈ t, isWhitespace c = false) :
    trim (a ++ t ++ b) = t := by
  by_cases hn : t = []
  · subst hn
    have hab : Blank (a ++ b) := by
      intro c hc
      rcases List.mem_append.mp hc with hc | hc
      · exact ha c hc
      · exact hb c hc
    have := dropWhile_blank (a := a ++ b) (t := []) hab (by intro c hc; cases hc)
    rw [List.append_nil] at this
    rw [trim, List.append_nil, this]; rfl
  · rw [trim, List.append_assoc, dropWhile_blank ha]
    · rw [List.reverse_append, dropWhile_blank (blank_reverse hb)]
      · simp
      · intro c hc
        apply ht
        rw [List.head?_reverse] at hc
        exact List.mem_of_getLast? hc
    · intro c hc
      cases t with
      | nil => exact (hn rfl).elim
      | cons d t =>
        simp at hc
        exact hc ▸ ht d (List.mem_cons_self ..)

theorem exists_dropWhile (s : List Char) : ∃ a, Blank a ∧ s = a ++ s.dropWhile isWhitespace := by
  refine ⟨s.takeWhile isWhitespace, ?_, List.takeWhile_append_dropWhile.symm⟩
  intro c hc
  exact (space_iff c).mp (List.all_eq_true.mp (List.all_takeWhile (l := s)) c hc)

/-- What is trimmed off is blank. -/
theorem trim_spec (s : List Char) : ∃ a b, Blank a ∧ Blank b ∧ s = a ++ trim s ++ b := by
  obtain ⟨a, ha, ea⟩ := exists_dropWhile s
  obtain ⟨b, hb, eb⟩ := exists_dropWhile (s.dropWhile isWhitespace).reverse
  refine ⟨a, b.reverse, ha, blank_reverse hb, ?_⟩
  have : s.dropWhile isWhitespace = trim s ++ b.reverse := by
    rw [trim, ← List.reverse_append, ← eb, List.reverse_reverse]
  rw [List.append_assoc, ← this]
  exact ea

theorem trim_blank {s : List Char} (h : Blank s) : trim s = [] := by
  have := trim_eq (a := s) (t := []) (b := []) h (by intro c hc; cases hc) (by intro c hc; cases hc)
  simpa using this

/-! ## Hyphens -/

theorem split_none {sep : Char} {s : List Char} (h : sep ∉ s) : split sep s = [s] := by
  induction s with
  | nil => rfl
  | cons c s ih =>
    rw [split, if_neg (fun e => h (by simp [e])), ih fun hc => h (List.mem_cons_of_mem _ hc)]

theorem split_append {sep : Char} {a : List Char} (h : sep ∉ a) (s : List Char) :
    split sep (a ++ sep :: s) = a :: split sep s := by
  induction a with
  | nil => rw [List.nil_append, split, if_pos rfl]
  | cons c a ih =>
    rw [List.cons_append, split, if_neg (fun e => h (by simp [e])), ih fun hc => h (List.mem_cons_of_mem _ hc)]

theorem split_ne_nil (sep : Char) (s : List Char) : split sep s ≠ [] := by
  cases s with
  | nil => simp [split]
  | cons c s =>
    rw [split]
    split
    · simp
    · split <;> simp

theorem first_sep {sep : Char} {s : List Char} (h : sep ∈ s) : ∃ a r, s = a ++ sep :: r ∧ sep ∉ a := by
  induction s with
  | nil => cases h
  | cons c s ih =>
    by_cases hc : c = sep
    · subst hc; exact ⟨[], s, rfl, by simp⟩
    · have hm : sep ∈ s := by
        rcases List.mem_cons.mp h with e | hm
        · exact (hc e.symm).elim
        · exact hm
      obtain ⟨a, r, e, ha⟩ := ih hm
      refine ⟨c :: a, r, by rw [e]; rfl, ?_⟩
      intro hx
      rcases List.mem_cons.mp hx with e' | hx
      · exact hc e'.symm
      · exact ha hx

/-- What the parts are. -/
theorem split_cases (sep : Char) (s : List Char) :
    (split sep s = [s] ∧ sep ∉ s) ∨ ∃ a r, s = a ++ sep :: r ∧ sep ∉ a ∧ split sep s = a :: split sep r := by
  by_cases h : sep ∈ s
  · obtain ⟨a, r, e, ha⟩ := first_sep h
    exact Or.inr ⟨a, r, e, ha, by rw [e]; exact split_append ha r⟩
  · exact Or.inl ⟨split_none h, h⟩

theorem blank_no_hyphen {b : List Char} (h : Blank b) : '-' ∉ b := fun hc => absurd (h _ hc) (by unfold Space; decide)

theorem numeral_no_hyphen {t : List Char} {n : Nat} (h : Numeral t n) : '-' ∉ t :=
  fun hc => ((numeral_chars h).2 _ hc).2 rfl

/-- A digit string printed by Rust is a numeral. -/
theorem numeral_print {n : Nat} (h : 0 < n) (hn : n ≤ usizeMax) : Numeral (print 10 n) n := by
  rw [← parsePageNumber_iff, parsePageNumber]
  have hp := parse_print (b := 10) (by omega) (by omega) usizeMax n hn
  by_cases h0 : print 10 n = ['0']
  · rw [h0] at hp
    have : parse 10 usizeMax ['0'] = some 0 := by decide
    rw [this] at hp; injection hp with hp; omega
  · rw [if_neg h0, hp]
    split
    · rename_i e; injection e with e; omega
    · rfl

end Tinymist.Pages
