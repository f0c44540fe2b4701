import Verif.Lemmas.Pages
import Verif.Spec.Docs

/-!
# Trimming, prefixes and braces
-/

namespace Tinymist.Docs

open Pages (isWhitespace trim Space Blank)

theorem ws_iff (c : Char) : isWhitespace c = true ↔ Space c := Pages.space_iff c

theorem ws_not (c : Char) : isWhitespace c = false ↔ ¬ Space c := by
  rw [← ws_iff]; simp

theorem trimStart_blank {w : Text} (hw : Blank w) (s : Text) : trimStart (w ++ s) = trimStart s := by
  induction w with
  | nil => rfl
  | cons c w ih =>
    rw [trimStart, List.cons_append, List.dropWhile_cons, (ws_iff c).mpr (hw c (List.mem_cons_self ..))]
    exact ih fun c hc => hw c (List.mem_cons_of_mem _ hc)

theorem trimStart_head {c : Char} {s : Text} (h : isWhitespace c = false) : trimStart (c :: s) = c :: s := by
  rw [trimStart, List.dropWhile_cons, h]; rfl

theorem trimStart_eq {s : Text} (h : ∀ c, s.head? = some c → ¬ Space c) : trimStart s = s := by
  cases s with
  | nil => rfl
  | cons c s => exact trimStart_head ((ws_not c).mpr (h c rfl))

theorem trimEnd_blank {w : Text} (hw : Blank w) (s : Text) : trimEnd (s ++ w) = trimEnd s := by
  rw [trimEnd, List.reverse_append]
  exact congrArg List.reverse (trimStart_blank (Pages.blank_reverse hw) s.reverse)

theorem trimEnd_last {c : Char} {s : Text} (h : isWhitespace c = false) : trimEnd (s ++ [c]) = s ++ [c] := by
  rw [trimEnd, List.reverse_append]
  exact (congrArg List.reverse (trimStart_head (s := s.reverse) h)).trans (by simp)

theorem trimEnd_eq {s : Text} (h : ∀ c, s.getLast? = some c → ¬ Space c) : trimEnd s = s := by
  rcases List.eq_nil_or_concat s with rfl | ⟨t, c, rfl⟩
  · rfl
  · rw [List.concat_eq_append] at h ⊢
    exact trimEnd_last ((ws_not c).mpr (h c (by simp)))

theorem trimEnd_spec (s : Text) : ∃ w, s = trimEnd s ++ w ∧ Blank w := by
  obtain ⟨a, h1, h2⟩ := Pages.exists_dropWhile s.reverse
  refine ⟨a.reverse, ?_, Pages.blank_reverse h1⟩
  have := congrArg List.reverse h2
  rwa [List.reverse_reverse, List.reverse_append] at this

theorem trim_def (s : Text) : trim s = trimEnd (trimStart s) := rfl

theorem trim_head {w s : Text} {c : Char} (hw : Blank w) (h : isWhitespace c = false) : trim (w ++ c :: s) = c :: trimEnd s := by
  rw [trim_def, trimStart_blank hw, trimStart_head h]
  obtain ⟨v, h1, h2⟩ := trimEnd_spec s
  have e : c :: s = (c :: trimEnd s) ++ v := by rw [List.cons_append, ← h1]
  rw [e, trimEnd_blank h2]
  apply trimEnd_eq
  intro x hx
  by_cases hs : trimEnd s = []
  · rw [hs] at hx; simp at hx; subst hx; exact (ws_not _).mp h
  · have hl : (trimEnd s).getLast? = some x := by
      rwa [List.getLast?_cons_of_ne_nil hs] at hx
    have := List.head?_dropWhile_not isWhitespace s.reverse
    rw [trimEnd, List.getLast?_reverse] at hl
    rw [hl] at this
    exact (ws_not _).mp (by simpa using this)

theorem trim_trimmed {w s w' : Text} (hw : Blank w) (hw' : Blank w') (hs : Trimmed s) : trim (w ++ s ++ w') = s := by
  rw [trim_def, List.append_assoc, trimStart_blank hw]
  cases s with
  | nil =>
    have : trimStart ([] ++ w') = [] := by simpa [trimStart] using trimStart_blank hw' []
    rw [this]; rfl
  | cons c s =>
    rw [List.cons_append, trimStart_head ((ws_not c).mpr (hs.1 c rfl)), ← List.cons_append, trimEnd_blank hw', trimEnd_eq hs.2]

theorem trim_blank_end {w : Text} (s : Text) (hw : Blank w) : trim (s ++ w) = trim s := by
  by_cases hs : Blank s
  · have : Blank (s ++ w) := by
      intro c hc
      rcases List.mem_append.mp hc with h | h
      · exact hs c h
      · exact hw c h
    rw [Pages.trim_blank this, Pages.trim_blank hs]
  · have : ∃ a c b, s = a ++ c :: b ∧ Blank a ∧ isWhitespace c = false := by
      obtain ⟨a, h1, h2⟩ := Pages.exists_dropWhile s
      cases hd : s.dropWhile isWhitespace with
      | nil => rw [hd, List.append_nil] at h2; exact (hs (h2 ▸ h1)).elim
      | cons c b =>
        refine ⟨a, c, b, by rw [← hd]; exact h2, h1, ?_⟩
        have := List.head?_dropWhile_not isWhitespace s
        rw [hd] at this
        simpa using this
    obtain ⟨a, c, b, rfl, ha, hc⟩ := this
    rw [List.append_assoc, List.cons_append, trim_head ha hc, trim_head ha hc, trimEnd_blank hw]

theorem stripPrefix_append (p s : Text) : stripPrefix p (p ++ s) = some s := by
  induction p with
  | nil => rfl
  | cons c p ih => rw [List.cons_append, stripPrefix, if_pos rfl, ih]

theorem stripPrefix_some {p s t : Text} (h : stripPrefix p s = some t) : s = p ++ t := by
  induction p generalizing s with
  | nil => rw [stripPrefix] at h; cases h; rfl
  | cons c p ih =>
    cases s with
    | nil => cases h
    | cons d s =>
      rw [stripPrefix] at h
      split at h
      · rename_i e; rw [e, ih h]; rfl
      · cases h

theorem stripSuffix_append (p s : Text) : stripSuffix p (s ++ p) = some s := by
  rw [stripSuffix, List.reverse_append, stripPrefix_append]; simp

theorem stripSuffix_some {p s t : Text} (h : stripSuffix p s = some t) : s = t ++ p := by
  rw [stripSuffix] at h
  cases hs : stripPrefix p.reverse s.reverse with
  | none => rw [hs] at h; cases h
  | some r =>
    rw [hs] at h; cases h
    have := congrArg List.reverse (stripPrefix_some hs)
    simpa using this

theorem splitOnce_append {x : Char} {a : Text} (h : x ∉ a) (b : Text) : splitOnce x (a ++ x :: b) = some (a, b) := by
  induction a with
  | nil => simp [splitOnce]
  | cons c a ih =>
    simp at h
    rw [List.cons_append, splitOnce, if_neg (fun e => h.1 e.symm), ih h.2]; rfl

theorem matchBrace_balanced {t : Text} (h : Balanced t) : ∀ (d : Nat) (r : Text),
    matchBrace (d + 1) (t ++ r) = (matchBrace (d + 1) r).map fun (a, b) => (t ++ a, b) := by
  induction h with
  | nil => intro d r; cases h : matchBrace (d + 1) r <;> simp [h]
  | char c s h1 h2 _ ih =>
    intro d r
    rw [List.cons_append, matchBrace]
    simp only [h1, h2, if_false, Nat.add_eq_zero_iff, Nat.one_ne_zero, and_false]
    rw [ih]
    cases matchBrace (d + 1) r <;> simp
  | brace a b _ _ iha ihb =>
    intro d r
    rw [List.cons_append, matchBrace]
    simp only [if_true, Nat.add_eq_zero_iff, Nat.one_ne_zero, and_false, if_false]
    rw [List.append_assoc, iha, List.cons_append, matchBrace]
    simp only [show ¬ (')' = '(') by decide, if_false, if_true, Nat.add_sub_cancel, Nat.add_eq_zero_iff, Nat.one_ne_zero, and_false]
    rw [ihb]
    cases matchBrace (d + 1) r <;> simp

theorem matchBrace_close {t : Text} (h : Balanced t) (r : Text) : matchBrace 1 (t ++ ')' :: r) = some (t, ')' :: r) := by
  rw [matchBrace_balanced h 0, matchBrace]
  simp

end Tinymist.Docs
