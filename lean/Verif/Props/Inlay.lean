import Verif.Spec.Inlay
/-! # Inlay hints: theorems -/
namespace Tinymist.Inlay

/-! ## C92: which arguments have hints -/

/-- What is counted for positional arguments and variadic ones. -/
def posCount (as : List Arg) : Nat := (as.filter fun a => decide (Positional a)).length

theorem posCount_cons (a : Arg) (as : List Arg) : posCount (a :: as) = (if Positional a then 1 else 0) + posCount as := by
  unfold posCount
  by_cases h : Positional a
  · rw [List.filter_cons_of_pos (by simpa using h), if_pos h, List.length_cons]; omega
  · rw [List.filter_cons_of_neg (by simpa using h), if_neg h]; omega

theorem count_spec (as : List Arg) : ∀ c : Count,
    ((count c as).pos ≤ if (count c as).rest then 0 else 1) ↔
      (c.pos + posCount as ≤ 1 ∧ (c.pos + posCount as = 0 ∨ (c.rest = false ∧ ¬ ∃ a ∈ as, Rest a))) := by
  induction as with
  | nil =>
    intro c
    rw [count]
    cases c.rest <;> simp [posCount] <;> omega
  | cons a as ih =>
    intro c
    rw [count, posCount_cons]
    cases hi : a.info with
    | none =>
      have hp : ¬ Positional a := by rintro ⟨i, h, _⟩; rw [hi] at h; cases h
      have hr : ¬ Rest a := by rintro ⟨i, h, _⟩; rw [hi] at h; cases h
      simp only [if_neg hp, Nat.zero_add]
      rw [ih]
      simp [hr]
    | some i =>
      have hpi : Positional a ↔ i.kind = .positional ∧ i.content = false := by
        constructor
        · rintro ⟨j, h, hk⟩; rw [hi] at h; cases h; exact hk
        · intro h; exact ⟨i, hi, h⟩
      have hri : Rest a ↔ i.kind = .rest := by
        constructor
        · rintro ⟨j, h, hk⟩; rw [hi] at h; cases h; exact hk
        · intro h; exact ⟨i, hi, h⟩
      simp only [List.mem_cons, exists_eq_or_imp, hpi, hri]
      cases hk : i.kind with
      | named =>
        simp only [ne_eq, not_true_eq_false, if_false, reduceCtorEq, false_and, Nat.zero_add, false_or]
        exact ih c
      | rest =>
        simp only [ne_eq, reduceCtorEq, not_false_eq_true, if_true, false_and, if_false, Nat.zero_add, true_or, not_true, and_false,
          or_false]
        rw [ih]
        simp
      | positional =>
        simp only [ne_eq, reduceCtorEq, not_false_eq_true, if_true, if_false, true_and, false_or]
        cases hc : i.content with
        | true =>
          simp only [if_true, reduceCtorEq, if_false, Nat.zero_add, Bool.true_eq_false]
          split
          · rename_i h
            have h' : c.pos > 1 := h.1
            refine iff_of_false ?_ ?_
            · split <;> simp only at * <;> omega
            · intro h2; omega
          · rw [ih]
        | false =>
          simp only [Bool.false_eq_true, if_false, if_true]
          split
          · rename_i h
            have h' : c.pos + 1 > 1 := h.1
            refine iff_of_false ?_ ?_
            · split <;> simp only at * <;> omega
            · intro h2; omega
          · rw [ih]
            simp only
            rw [Nat.add_assoc]

theorem single_iff (args : List Arg) : single args = false ↔ Useful args := by
  unfold single
  simp only [decide_eq_false_iff_not]
  rw [count_spec]
  simp only [Nat.zero_add, true_and, Useful]
  show ¬ (posCount args ≤ 1 ∧ (posCount args = 0 ∨ ¬ ∃ a ∈ args, Rest a)) ↔ 2 ≤ posCount args ∨ (1 ≤ posCount args ∧ ∃ a ∈ args, Rest a)
  by_cases h : ∃ a ∈ args, Rest a <;> simp only [h, not_true, not_false_eq_true, or_false, or_true, and_true, and_false] <;> omega

theorem hint_cons_skip {shape : Bool} {first : Bool} {a : Arg} {as : List Arg} {h : Hint} {start : Nat}
    (hl : ∀ pre l, ¬ Labelled shape pre a l) (hr : ¬ ∃ i, a.info = some i ∧ i.kind = .rest ∧ i.name ≠ []) :
    ((∃ pre x post, a :: as = pre ++ x :: post ∧ h.pos = start + x.rel ∧ Labelled shape pre x h.label ∧
        (first = false → ∀ i, x.info = some i → i.kind ≠ .rest)) ↔
      ∃ pre x post, as = pre ++ x :: post ∧ h.pos = start + x.rel ∧ Labelled shape pre x h.label ∧
        (first = false → ∀ i, x.info = some i → i.kind ≠ .rest)) := by
  constructor
  · rintro ⟨pre, x, post, he, hp, hx, hf⟩
    cases pre with
    | nil => cases he; exact (hl _ _ hx).elim
    | cons p pre =>
      cases he
      refine ⟨pre, x, post, rfl, hp, ?_, hf⟩
      obtain ⟨i, h1, h2, h3 | ⟨h3, h4, h5⟩⟩ := hx
      · exact ⟨i, h1, h2, .inl h3⟩
      · exact ⟨i, h1, h2, .inr ⟨h3, fun b hb => h4 b (.tail _ hb), h5⟩⟩
  · rintro ⟨pre, x, post, rfl, hp, hx, hf⟩
    refine ⟨a :: pre, x, post, rfl, hp, ?_, hf⟩
    obtain ⟨i, h1, h2, h3 | ⟨h3, h4, h5⟩⟩ := hx
    · exact ⟨i, h1, h2, .inl h3⟩
    · refine ⟨i, h1, h2, .inr ⟨h3, ?_, h5⟩⟩
      intro b hb j hj hk
      rcases List.mem_cons.mp hb with rfl | hb
      · exact Classical.byContradiction fun hn => hr ⟨j, hj, hk, hn⟩
      · exact h4 b hb j hj hk

theorem hintArgs_iff (start : Nat) (shape : Bool) (as : List Arg) (h : Hint) : ∀ first : Bool,
    h ∈ hintArgs start shape false first as ↔
      ∃ pre a post, as = pre ++ a :: post ∧ h.pos = start + a.rel ∧ Labelled shape pre a h.label ∧
        (first = false → ∀ i, a.info = some i → i.kind ≠ .rest) := by
  have hcolon : ":".toList = [':'] := by decide +kernel
  have hdots : "..".toList = ['.', '.'] := by decide +kernel
  induction as with
  | nil =>
    intro first
    rw [hintArgs]
    refine iff_of_false (by simp) ?_
    rintro ⟨pre, a, post, he, _⟩
    cases pre <;> cases he
  | cons a as ih =>
    intro first
    rw [hintArgs]
    cases hi : a.info with
    | none =>
      simp only
      rw [ih, hint_cons_skip]
      · rintro pre l ⟨i, h1, _⟩; rw [hi] at h1; cases h1
      · rintro ⟨i, h1, _⟩; rw [hi] at h1; cases h1
    | some i =>
      simp only
      by_cases hn : i.name = []
      · rw [if_pos hn, ih, hint_cons_skip]
        · rintro pre l ⟨j, h1, h2, _⟩; rw [hi] at h1; cases h1; exact h2 hn
        · rintro ⟨j, h1, _, h2⟩; rw [hi] at h1; cases h1; exact h2 hn
      · rw [if_neg hn]
        cases hk : i.kind with
        | named =>
          simp only
          rw [ih, hint_cons_skip]
          · rintro pre l ⟨j, h1, _, ⟨h2, _⟩ | ⟨h2, _⟩⟩ <;> (rw [hi] at h1; cases h1; rw [hk] at h2; cases h2)
          · rintro ⟨j, h1, h2, _⟩; rw [hi] at h1; cases h1; rw [hk] at h2; cases h2
        | positional =>
          simp only
          have hr : ¬ ∃ j, a.info = some j ∧ j.kind = .rest ∧ j.name ≠ [] := by
            rintro ⟨j, h1, h2, _⟩; rw [hi] at h1; cases h1; rw [hk] at h2; cases h2
          cases hs : shape with
          | true =>
            subst hs
            rw [if_pos rfl, ih, hint_cons_skip _ hr]
            rintro pre l ⟨j, h1, _, ⟨_, _, h2, _⟩ | ⟨h2, _⟩⟩
            · cases h2
            · rw [hi] at h1; cases h1; rw [hk] at h2; cases h2
          | false =>
            subst hs
            rw [if_neg (by simp)]
            cases hc : i.content with
            | true =>
              rw [if_pos (by simp), ih, hint_cons_skip _ hr]
              rintro pre l ⟨j, h1, _, ⟨_, h2, _⟩ | ⟨h2, _⟩⟩
              · rw [hi] at h1; cases h1; rw [hc] at h2; cases h2
              · rw [hi] at h1; cases h1; rw [hk] at h2; cases h2
            | false =>
              rw [if_neg (by simp), List.mem_cons, ih]
              constructor
              · rintro (rfl | ⟨pre, x, post, rfl, hp, hx, hf⟩)
                · refine ⟨[], a, as, rfl, rfl, ⟨i, hi, hn, .inl ⟨hk, hc, rfl, by rw [hcolon]⟩⟩, ?_⟩
                  intro _ j hj; rw [hi] at hj; cases hj; rw [hk]; simp
                · refine ⟨a :: pre, x, post, rfl, hp, ?_, hf⟩
                  obtain ⟨j, h1, h2, h3 | ⟨h3, h4, h5⟩⟩ := hx
                  · exact ⟨j, h1, h2, .inl h3⟩
                  · refine ⟨j, h1, h2, .inr ⟨h3, ?_, h5⟩⟩
                    intro b hb j' hj hk'
                    rcases List.mem_cons.mp hb with rfl | hb
                    · exact Classical.byContradiction fun hn => hr ⟨j', hj, hk', hn⟩
                    · exact h4 b hb j' hj hk'
              · rintro ⟨pre, x, post, he, hp, hx, hf⟩
                cases pre with
                | nil =>
                  cases he
                  obtain ⟨j, h1, h2, ⟨_, _, _, h3⟩ | ⟨h3, _⟩⟩ := hx
                  · rw [hi] at h1; cases h1
                    left
                    obtain ⟨p, l⟩ := h
                    simp only at hp h3
                    rw [hp, h3, hcolon]
                  · rw [hi] at h1; cases h1; rw [hk] at h3; cases h3
                | cons p pre =>
                  cases he
                  refine .inr ⟨pre, x, post, rfl, hp, ?_, hf⟩
                  obtain ⟨j, h1, h2, h3 | ⟨h3, h4, h5⟩⟩ := hx
                  · exact ⟨j, h1, h2, .inl h3⟩
                  · exact ⟨j, h1, h2, .inr ⟨h3, fun b hb => h4 b (.tail _ hb), h5⟩⟩
        | rest =>
          simp only [Bool.false_or]
          -- What comes behind the first one has no rest any more.
          have tailOnly : (∃ pre x post, as = pre ++ x :: post ∧ h.pos = start + x.rel ∧ Labelled shape pre x h.label ∧
                (false = false → ∀ j, x.info = some j → j.kind ≠ .rest)) ↔
              ∃ pre x post, as = pre ++ x :: post ∧ h.pos = start + x.rel ∧ Labelled shape (a :: pre) x h.label := by
            constructor
            · rintro ⟨pre, x, post, rfl, hp, ⟨j, h1, h2, h3 | ⟨h3, _⟩⟩, hf⟩
              · exact ⟨pre, x, post, rfl, hp, ⟨j, h1, h2, .inl h3⟩⟩
              · exact (hf rfl j h1 h3).elim
            · rintro ⟨pre, x, post, rfl, hp, ⟨j, h1, h2, h3 | ⟨h3, h4, _⟩⟩⟩
              · refine ⟨pre, x, post, rfl, hp, ⟨j, h1, h2, .inl h3⟩, ?_⟩
                intro _ j' hj'; rw [h1] at hj'; cases hj'; rw [h3.1]; simp
              · exact (hn (h4 a (.head _) i hi hk)).elim
          have notRest : ∀ x : Arg, ∀ pre l, Labelled shape (a :: pre) x l → ∀ j, x.info = some j → j.kind ≠ .rest := by
            rintro x pre l ⟨j, h1, h2, h3 | ⟨h3, h4, _⟩⟩ j' hj'
            · rw [h1] at hj'; cases hj'; rw [h3.1]; simp
            · exact (hn (h4 a (.head _) i hi hk)).elim
          cases hf : first with
          | false =>
            simp only [Bool.not_false, if_true]
            rw [ih, tailOnly]
            constructor
            · rintro ⟨pre, x, post, rfl, hp, hx⟩
              exact ⟨a :: pre, x, post, rfl, hp, hx, fun _ => notRest x pre _ hx⟩
            · rintro ⟨pre, x, post, he, hp, hx, hnr⟩
              cases pre with
              | nil => cases he; exact (hnr trivial i hi hk).elim
              | cons p pre => cases he; exact ⟨pre, x, post, rfl, hp, hx⟩
          | true =>
            simp only [Bool.not_true, Bool.false_eq_true, if_false]
            rw [List.mem_cons, ih, tailOnly]
            constructor
            · rintro (rfl | ⟨pre, x, post, rfl, hp, hx⟩)
              · exact ⟨[], a, as, rfl, rfl, ⟨i, hi, hn, .inr ⟨hk, by simp, by rw [hcolon, hdots]; rfl⟩⟩, by simp⟩
              · exact ⟨a :: pre, x, post, rfl, hp, hx, by simp⟩
            · rintro ⟨pre, x, post, he, hp, hx, _⟩
              cases pre with
              | nil =>
                cases he
                obtain ⟨j, h1, h2, ⟨h3, _⟩ | ⟨_, _, h3⟩⟩ := hx
                · rw [hi] at h1; cases h1; rw [hk] at h3; cases h3
                · rw [hi] at h1; cases h1
                  left
                  obtain ⟨p, l⟩ := h
                  simp only at hp h3
                  rw [hp, h3, hcolon, hdots]
                  rfl
              | cons p pre => cases he; exact .inr ⟨pre, x, post, rfl, hp, hx⟩

theorem hintArgs_single (start : Nat) (shape : Bool) (as : List Arg) : ∀ first : Bool, hintArgs start shape true first as = [] := by
  induction as with
  | nil => intro first; rw [hintArgs]
  | cons a as ih =>
    intro first
    rw [hintArgs]
    split
    · exact ih first
    · split
      · exact ih first
      · split
        · exact ih first
        · split
          · exact ih first
          · rw [if_pos (by simp)]; exact ih first
        · rw [if_pos (by simp)]; exact ih false

/-- C92: the hints of a call. There are some only if they are useful: with two positional arguments that are not content blocks, or
one and variadic ones. Then each positional argument that is not a content block has the name of its parameter before it, unless
the function has shape parameters, and the first variadic argument has its name after two dots. -/
theorem hinted (start : Nat) (c : Call) (h : Hint) : h ∈ analyze start (some c) ↔
    Useful c.args ∧ ∃ before a after, c.args = before ++ a :: after ∧ h.pos = start + a.rel ∧ Labelled c.shape before a h.label := by
  rw [analyze]
  cases hs : single c.args with
  | true =>
    rw [hintArgs_single]
    have : ¬ Useful c.args := by rw [← single_iff, hs]; simp
    simp [this]
  | false =>
    rw [hintArgs_iff]
    simp [(single_iff _).mp hs]

/-- C92: the hints come in the order of the arguments, at most one each. -/
theorem in_order (start : Nat) (c : Call) :
    ((analyze start (some c)).map (·.pos)).Sublist (c.args.map fun a => start + a.rel) := by
  rw [analyze]
  generalize single c.args = sing
  generalize c.args = as
  generalize true = first
  induction as generalizing first with
  | nil => rw [hintArgs]; exact .slnil
  | cons a as ih =>
    rw [hintArgs, List.map_cons]
    split
    · exact (ih first).cons _
    · split
      · exact (ih first).cons _
      · split
        · exact (ih first).cons _
        · split
          · exact (ih first).cons _
          · split
            · exact (ih first).cons _
            · rw [List.map_cons]; exact (ih first).cons_cons _
        · split
          · exact (ih false).cons _
          · rw [List.map_cons]; exact (ih false).cons_cons _

/-- `f(1, x, ..y)`. -/
example : analyze 10 (some ⟨[⟨2, some ⟨.positional, false, ['a']⟩⟩, ⟨5, some ⟨.rest, false, ['r']⟩⟩, ⟨7, some ⟨.rest, false, ['r']⟩⟩],
    false⟩) = [⟨12, "a:".toList⟩, ⟨15, "..r:".toList⟩] := by decide +kernel

/-! ## C91: hints of a range -/

mutual
theorem size_eq : ∀ n : Node, size n = width n
  | .leaf _ => rfl
  | .inner _ cs => by rw [size, width, sizes_eq cs]
theorem sizes_eq : ∀ cs : List Node, sizes cs = widths cs
  | [] => rfl
  | c :: cs => by rw [sizes, widths, size_eq c, sizes_eq cs]
end

mutual
theorem callAt_bounds : ∀ {off : Nat} {n : Node} {s l : Nat} {c : Call}, CallAt off n s l c → off ≤ s ∧ s + l ≤ off + width n
  | _, .leaf _, _, _, _, h => by cases h
  | off, .inner _ cs, s, l, c, h => by
    rw [width]
    cases h with
    | here => exact ⟨Nat.le_refl _, Nat.le_refl _⟩
    | inside h => exact callsAt_bounds h
theorem callsAt_bounds : ∀ {off : Nat} {ns : List Node} {s l : Nat} {c : Call}, CallsAt off ns s l c → off ≤ s ∧ s + l ≤ off + widths ns
  | _, [], _, _, _, h => by cases h
  | off, n :: ns, s, l, c, h => by
    rw [widths]
    cases h with
    | head h => have := callAt_bounds h; omega
    | tail h => have := callsAt_bounds h; omega
end

mutual
theorem work_iff (lo hi : Nat) (h : Hint) : ∀ (n : Node) (off : Nat),
    h ∈ work lo hi off n ↔ ∃ s l c, CallAt off n s l c ∧ s < hi ∧ lo < s + l ∧ h ∈ analyze s (some c)
  | .leaf k, off => by
    rw [work]
    refine iff_of_false (by simp) ?_
    rintro ⟨s, l, c, h, _⟩
    cases h
  | .inner c cs, off => by
    rw [work, sizes_eq]
    by_cases ho : off ≥ hi ∨ off + widths cs ≤ lo
    · rw [if_pos ho]
      refine iff_of_false (by simp) ?_
      rintro ⟨s, l, d, hc, h1, h2, _⟩
      have := callAt_bounds hc
      rw [width] at this
      omega
    · rw [if_neg ho, List.mem_append, works_iff lo hi h cs off]
      constructor
      · rintro (hh | ⟨s, l, d, hc, hr⟩)
        · cases c with
          | none => rw [analyze] at hh; cases hh
          | some c => exact ⟨off, widths cs, c, .here, by omega, by omega, hh⟩
        · exact ⟨s, l, d, .inside hc, hr⟩
      · rintro ⟨s, l, d, hc, hr⟩
        cases hc with
        | here => exact .inl hr.2.2
        | inside hc => exact .inr ⟨s, l, d, hc, hr⟩
theorem works_iff (lo hi : Nat) (h : Hint) : ∀ (ns : List Node) (off : Nat),
    h ∈ works lo hi off ns ↔ ∃ s l c, CallsAt off ns s l c ∧ s < hi ∧ lo < s + l ∧ h ∈ analyze s (some c)
  | [], off => by
    rw [works]
    refine iff_of_false (by simp) ?_
    rintro ⟨s, l, c, h, _⟩
    cases h
  | n :: ns, off => by
    rw [works, size_eq, List.mem_append, work_iff lo hi h n off, works_iff lo hi h ns (off + width n)]
    constructor
    · rintro (⟨s, l, d, hc, hr⟩ | ⟨s, l, d, hc, hr⟩)
      · exact ⟨s, l, d, .head hc, hr⟩
      · exact ⟨s, l, d, .tail hc, hr⟩
    · rintro ⟨s, l, d, hc, hr⟩
      cases hc with
      | head hc => exact .inl ⟨s, l, d, hc, hr⟩
      | tail hc => exact .inr ⟨s, l, d, hc, hr⟩
end

/-- C91: the hints answered for a range are those of the calls of which a part is in the range. -/
theorem hints_of_range (lo hi : Nat) (root : Node) (h : Hint) : h ∈ request lo hi root ↔
    ∃ s l c, CallAt 0 root s l c ∧ s < hi ∧ lo < s + l ∧ h ∈ analyze s (some c) := work_iff lo hi h root 0

/-- The arguments of a call are in it. -/
def ArgsInside (root : Node) : Prop := ∀ s l c, CallAt 0 root s l c → ∀ a ∈ c.args, a.rel < l

/-- C91: no hint in the range is missing: it is answered for the range if it is for any range. -/
theorem none_missing_partial (lo hi lo' hi' : Nat) (root : Node) (hr : ArgsInside root) (h : Hint) (hh : h ∈ request lo' hi' root)
    (h1 : lo ≤ h.pos) (h2 : h.pos < hi) : h ∈ request lo hi root := by
  obtain ⟨s, l, c, hc, _, _, ha⟩ := (hints_of_range ..).mp hh
  refine (hints_of_range ..).mpr ⟨s, l, c, hc, ?_, ?_, ha⟩
  all_goals
    obtain ⟨_, pre, a, post, he, hp, _⟩ := (hinted s c h).mp ha
    have := hr s l c hc a (by rw [he]; simp)
    omega

mutual
theorem work_sublist (lo hi lo' hi' : Nat) (h1 : lo' ≤ lo) (h2 : hi ≤ hi') : ∀ (n : Node) (off : Nat),
    (work lo hi off n).Sublist (work lo' hi' off n)
  | .leaf k, off => by rw [work, work]; exact .slnil
  | .inner c cs, off => by
    rw [work, work]
    by_cases ho : off ≥ hi ∨ off + sizes cs ≤ lo
    · rw [if_pos ho]; exact List.nil_sublist _
    · rw [if_neg ho, if_neg (by omega)]
      exact (List.Sublist.refl _).append (works_sublist lo hi lo' hi' h1 h2 cs off)
theorem works_sublist (lo hi lo' hi' : Nat) (h1 : lo' ≤ lo) (h2 : hi ≤ hi') : ∀ (ns : List Node) (off : Nat),
    (works lo hi off ns).Sublist (works lo' hi' off ns)
  | [], off => by rw [works, works]; exact .slnil
  | n :: ns, off => by
    rw [works, works]
    exact (work_sublist lo hi lo' hi' h1 h2 n off).append (works_sublist lo hi lo' hi' h1 h2 ns (off + size n))
end

/-- C91: the hints of a part of a range are among those of the range, in the same order. -/
theorem part_of_range (lo hi lo' hi' : Nat) (h1 : lo' ≤ lo) (h2 : hi ≤ hi') (root : Node) :
    (request lo hi root).Sublist (request lo' hi' root) := work_sublist lo hi lo' hi' h1 h2 root 0

/-- C91: what two ranges that meet are answered is what the range of both is answered. -/
theorem ranges_meet (lo mid hi : Nat) (h1 : lo < mid) (h2 : mid < hi) (root : Node) (hr : ArgsInside root) (h : Hint) :
    h ∈ request lo hi root ↔ h ∈ request lo mid root ∨ h ∈ request mid hi root := by
  constructor
  · intro hh
    obtain ⟨s, l, c, hc, a, b, hm⟩ := (hints_of_range ..).mp hh
    by_cases hs : s < mid
    · exact .inl ((hints_of_range ..).mpr ⟨s, l, c, hc, hs, b, hm⟩)
    · obtain ⟨_, pre, x, post, he, _⟩ := (hinted s c h).mp hm
      have := hr s l c hc x (by rw [he]; simp)
      exact .inr ((hints_of_range ..).mpr ⟨s, l, c, hc, a, by omega, hm⟩)
  · rintro (hh | hh)
    · exact (part_of_range lo mid lo hi (by omega) (by omega) root).subset hh
    · exact (part_of_range mid hi lo hi (by omega) (by omega) root).subset hh

/-- `f(1,` and `2)` on two lines. -/
def twoLines : Node :=
  .inner none [.leaf 1, .inner (some ⟨[⟨2, some ⟨.positional, false, ['a']⟩⟩, ⟨5, some ⟨.positional, false, ['b']⟩⟩], false⟩) [.leaf 7]]

theorem twoLines_inside : ArgsInside twoLines := by
  intro s l c h a ha
  cases h with
  | inside h => cases h with
    | head h => cases h
    | tail h => cases h with
      | head h => cases h with
        | here =>
          simp only [List.mem_cons, List.not_mem_nil, or_false] at ha
          rcases ha with rfl | rfl <;> decide
        | inside h => cases h with
          | head h => cases h
          | tail h => cases h
      | tail h => cases h

/-- C91, what is missing: hints outside of the range are answered as well, and those of a call over two ranges for both. -/
theorem hint_outside : ∃ root lo hi h, ArgsInside root ∧ h ∈ request lo hi root ∧ hi ≤ h.pos ∧ h ∈ request hi (width root) root :=
  ⟨twoLines, 0, 5, ⟨6, ['b', ':']⟩, twoLines_inside, by decide, by decide, by decide⟩

example : request 0 8 twoLines = [⟨3, ['a', ':']⟩, ⟨6, ['b', ':']⟩] ∧ request 6 7 twoLines ≠ [] ∧ request 0 1 twoLines = [] := by
  decide

end Tinymist.Inlay
