import Verif.Spec.Folding

/-!
# C44: line folding ranges do not clash
-/

namespace Tinymist.Folding

theorem keep_some {c c' : Cover} {r r' : Lines} (h : keep c r = (c', some r')) :
    r ∉ c.pairs ∧ r'.1 < r'.2 ∧ r'.1 = (if r.1 ∈ c.lines then r.1 + 1 else r.1) ∧
      r'.2 = (if r.2 ∈ c.lines then r.2 - 1 else r.2) ∧ c'.lines = r'.1 :: c.lines ∧ c'.pairs = r' :: c.pairs := by
  unfold keep at h
  split at h
  · simp at h
  · rename_i hp
    split at h
    · simp at h
    · rename_i hlt
      simp only [Prod.mk.injEq, Option.some.injEq] at h
      obtain ⟨rfl, rfl⟩ := h
      exact ⟨hp, by omega, rfl, rfl, rfl, rfl⟩

theorem keep_none {c c' : Cover} {r : Lines} (h : keep c r = (c', none)) : c' = c := by
  unfold keep at h
  split at h
  · simp at h; exact h.symm
  · split at h
    · simp at h; exact h.symm
    · simp at h

theorem retain_long (c : Cover) (l : List Lines) : ∀ r ∈ retain c l, r.1 < r.2 := by
  induction l generalizing c with
  | nil => intro r hr; cases hr
  | cons a l ih =>
    intro r hr
    rw [retain] at hr
    split at hr
    · exact ih _ r hr
    · rename_i c' r' hk
      rw [List.mem_cons] at hr
      rcases hr with rfl | hr
      · exact (keep_some hk).2.1
      · exact ih _ r hr

/-- **C44.** Every range for a client that folds whole lines covers at least two lines. -/
theorem two_lines (eof : Loc) (items : List Item) : ∀ r ∈ request true eof items, r.1 < r.2 := by
  intro r hr
  simp only [request, lineOnly, if_true, List.mem_reverse] at hr
  exact retain_long _ _ r hr

theorem retain_within (c : Cover) (l : List Lines) : ∀ r ∈ retain c l, ∃ b ∈ l, Within r b := by
  induction l generalizing c with
  | nil => intro r hr; cases hr
  | cons a l ih =>
    intro r hr
    rw [retain] at hr
    split at hr
    · obtain ⟨b, hb, h⟩ := ih _ r hr
      exact ⟨b, List.mem_cons_of_mem _ hb, h⟩
    · rename_i c' r' hk
      rw [List.mem_cons] at hr
      rcases hr with rfl | hr
      · obtain ⟨_, h1, h2, h3, _⟩ := keep_some hk
        refine ⟨a, List.mem_cons_self, ?_, ?_⟩
        · rw [h2]; split
          · exact .inr rfl
          · exact .inl rfl
        · rw [h3] at h1 ⊢; split at h1
          · rename_i h; rw [if_pos h]; right; omega
          · rename_i h; rw [if_neg h]; exact .inl rfl
      · obtain ⟨b, hb, h⟩ := ih _ r hr
        exact ⟨b, List.mem_cons_of_mem _ hb, h⟩

/-- **C44.** Every such range is the range of an element of the document, short of at most its first and last line. -/
theorem of_an_element (eof : Loc) (items : List Item) :
    ∀ r ∈ request true eof items, ∃ b ∈ request false eof items, Within r b := by
  intro r hr
  simp only [request, lineOnly, if_true, List.mem_reverse] at hr
  obtain ⟨b, hb, h⟩ := retain_within _ _ r hr
  rw [List.mem_reverse] at hb
  exact ⟨b, by simpa [request] using hb, h⟩

theorem starting_append (a b : List Lines) (n : Nat) : starting (a ++ b) n = starting a n + starting b n := by
  simp [starting]

theorem starting_cons (r : Lines) (l : List Lines) (n : Nat) :
    starting (r :: l) n = (if r.1 = n then 1 else 0) + starting l n := by
  unfold starting
  rw [List.filter_cons]
  by_cases h : r.1 = n
  · simp [h]; omega
  · simp [h]

theorem starting_reverse (l : List Lines) (n : Nat) : starting l.reverse n = starting l n := by
  simp [starting, List.filter_reverse]

/-- What the covered lines are covered by: an element that starts there, or the second element of the line before. -/
def Covered (done : List Lines) (c : Cover) : Prop :=
  ∀ n ∈ c.lines, 1 ≤ starting done n ∨ ∃ m, n = m + 1 ∧ 2 ≤ starting done m

theorem retain_distinct (all : List Lines) (hs : Spread all) (l done : List Lines) (c : Cover) (hall : all = done ++ l)
    (hc : Covered done c) (hn : c.lines.Nodup) :
    ((retain c l).map (·.1)).Nodup ∧ ∀ r ∈ retain c l, r.1 ∉ c.lines := by
  induction l generalizing done c with
  | nil => simp [retain]
  | cons a l ih =>
    have hall' : all = (done ++ [a]) ++ l := by rw [hall]; simp
    have mono : ∀ n, starting done n ≤ starting (done ++ [a]) n := fun n => by rw [starting_append]; omega
    have hc' : Covered (done ++ [a]) c := by
      intro n hn
      rcases hc n hn with h | ⟨m, e, h⟩
      · exact .inl (Nat.le_trans h (mono n))
      · exact .inr ⟨m, e, Nat.le_trans h (mono m)⟩
    rw [retain]
    split
    · rename_i c' hk
      rw [keep_none hk]
      exact ih (done ++ [a]) c hall' hc' hn
    · rename_i c' r' hk
      obtain ⟨_, _, h2, _, h4, _⟩ := keep_some hk
      have hla : 1 ≤ starting (done ++ [a]) a.1 := by
        rw [starting_append, starting_cons]; simp; omega
      have hle : ∀ n, starting (done ++ [a]) n ≤ starting all n := fun n => by rw [hall', starting_append _ l]; omega
      have hnew : r'.1 ∉ c.lines ∧ (1 ≤ starting (done ++ [a]) r'.1 ∨ ∃ m, r'.1 = m + 1 ∧ 2 ≤ starting (done ++ [a]) m) := by
        rw [h2]
        split
        · rename_i hin
          have htwo : 2 ≤ starting (done ++ [a]) a.1 := by
            rcases hc a.1 hin with h | ⟨m, e, h⟩
            · rw [starting_append, starting_cons]; simp; omega
            · exfalso
              have h2 : starting all m = 2 := by
                have := (hs m).1
                have := hle m
                have := mono m
                omega
              have h0 := (hs m).2 h2
              rw [← e] at h0
              have := hle a.1
              omega
          have hfull : starting all a.1 = 2 := by
            have := (hs a.1).1
            have := hle a.1
            omega
          refine ⟨fun hin' => ?_, .inr ⟨a.1, rfl, htwo⟩⟩
          rcases hc _ hin' with h | ⟨m, e, h⟩
          · have h0 := (hs a.1).2 hfull
            have := hle (a.1 + 1)
            have := mono (a.1 + 1)
            omega
          · have : m = a.1 := by omega
            subst this
            have hx : starting (done ++ [a]) a.1 = starting done a.1 + 1 := by
              rw [starting_append, starting_cons]; simp [starting]
            have := hle a.1
            omega
        · rename_i hout
          exact ⟨hout, .inl hla⟩
      have := ih (done ++ [a]) c' hall' (by
          intro n hn
          rw [h4, List.mem_cons] at hn
          rcases hn with rfl | hn
          · exact hnew.2
          · exact hc' n hn) (by rw [h4, List.nodup_cons]; exact ⟨hnew.1, hn⟩)
      refine ⟨?_, ?_⟩
      · rw [List.map_cons, List.nodup_cons]
        refine ⟨?_, this.1⟩
        intro hm
        rw [List.mem_map] at hm
        obtain ⟨r, hr, e⟩ := hm
        have := this.2 r hr
        rw [h4] at this
        exact this (by rw [e]; simp)
      · intro r hr
        rw [List.mem_cons] at hr
        rcases hr with rfl | hr
        · exact hnew.1
        · intro hin
          exact this.2 r hr (by rw [h4]; exact List.mem_cons_of_mem _ hin)

/-- **C44, partial.** If no line starts more than two elements, and none starts on the line after one that starts two,
then no two ranges start on the same line. Missing from the full claim: documents that are not spread like this. -/
theorem starts_differ_partial (eof : Loc) (items : List Item) (hs : Spread (request false eof items)) :
    ((request true eof items).map (·.1)).Nodup := by
  have hs' : Spread ((request false eof items).reverse) := by
    intro n; rw [starting_reverse, starting_reverse]; exact hs n
  have := (retain_distinct _ hs' (request false eof items).reverse [] ⟨[], []⟩ (by simp) (fun n hn => (by cases hn)) (by simp)).1
  have e : request true eof items = (retain ⟨[], []⟩ (request false eof items).reverse).reverse := by
    simp [request, lineOnly]
  rw [e, List.map_reverse]
  exact (List.reverse_perm _).nodup_iff.mpr this

/-- An element other than a heading, over whole lines. -/
def block (s e : Nat) (children : List Item) : Item := .mk .other ⟨s, 0⟩ ⟨e, 0⟩ children

/-- Meets the hypotheses: a call whose arguments start on the line of a block, and a block further down. -/
example : request false ⟨9, 0⟩ [block 0 9 [block 0 8 [], ], block 12 14 []] = [(0, 8), (0, 9), (12, 14)] ∧
    request true ⟨9, 0⟩ [block 0 9 [block 0 8 []], block 12 14 []] = [(1, 8), (0, 9), (12, 14)] := by decide +kernel

/-- **C44 fails.** Three nested elements that start on one line, as in `#(((` … `))` … `)`: two of the ranges are the
same. -/
theorem three_nested_clash :
    request true ⟨3, 1⟩ [block 0 3 [block 0 2 [block 0 2 []]]] = [(1, 2), (1, 2), (0, 3)] := by decide +kernel

end Tinymist.Folding
