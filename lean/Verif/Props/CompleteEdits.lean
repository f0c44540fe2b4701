import Verif.Spec.Complete
import Verif.Lemmas.Position
import Verif.Lemmas.Docs
/-!
# The edits of completions
-/
namespace Tinymist.Complete
open Position (len8 splitAtByte len8_append len8_cons len8_nil splitAtByte_append splitAtByte_some)

/-- One edit between `a` and `c`. -/
theorem edited_one {s a b c new : Text} {start stop : Nat} (hs : s = a ++ b ++ c) (h1 : start = len8 a)
    (h2 : stop = len8 a + len8 b) : Edited 0 s [⟨start, stop, new⟩] (a ++ new ++ c) := by
  subst hs h1 h2
  have := Edited.edit 0 a b c c new [] (.done _ _)
  simpa using this

theorem headAt_append (a b : Text) : headAt (a ++ b) (len8 a) = some a := by
  rw [headAt, splitAtByte_append]; rfl

theorem tailAt_append (a b : Text) : tailAt (a ++ b) (len8 a) = some b := by
  rw [tailAt, splitAtByte_append]; rfl

/-! ## Identifiers -/

theorem selected_ident {c : Cursor} (hs : c.syn = .callee ∨ c.syn = .varAccess) (hi : c.identLike = true)
    (hf : c.frm = c.offset) : selected c = some .ident := by
  rw [selected, if_pos ⟨hs, hi, hf.symm⟩]

/-- **C100.** Accepting a completion replaces the identifier at the cursor, and nothing else. -/
theorem identifier_replaced (c : Cursor) (pre post apply : Text) (h : Stands c pre post)
    (hs : c.syn = .callee ∨ c.syn = .varAccess) (hi : c.identLike = true) (hf : c.frm = c.offset)
    (hc : c.syn = .callee ∨ c.cursor = c.offset + len8 c.leaf ∨ c.argLike = false) :
    Edited 0 c.text [mainEdit c apply] (pre ++ apply ++ post) := by
  have e : mainEdit c apply = ⟨c.offset, c.offset + len8 c.leaf, apply⟩ := by
    simp only [mainEdit, selected_ident hs hi hf]
    rw [if_neg]
    rintro ⟨h1, h2, h3⟩
    rcases hc with hc | hc | hc
    · exact h1 hc
    · exact h2 hc
    · rw [hc] at h3; cases h3
  rw [e]
  exact edited_one h.text h.offset (by rw [h.offset])

theorem endsWithComma_iff (s : Text) : endsWithComma s = true ↔ EndsComma s := by
  unfold endsWithComma EndsComma
  obtain ⟨w, hw, hb⟩ : ∃ w, s = Docs.trimEnd s ++ w ∧ ∀ c ∈ w, Pages.isWhitespace c = true := by
    refine ⟨(s.reverse.takeWhile Pages.isWhitespace).reverse, ?_, ?_⟩
    · unfold Docs.trimEnd
      rw [← List.reverse_append, List.takeWhile_append_dropWhile, List.reverse_reverse]
    · intro c hc
      rw [List.mem_reverse] at hc
      exact (List.all_eq_true.mp (List.all_takeWhile (l := s.reverse) (p := Pages.isWhitespace))) c hc
  constructor
  · intro h
    rw [beq_iff_eq, List.getLast?_eq_some_iff] at h
    obtain ⟨ys, hy⟩ := h
    exact ⟨ys, w, by rw [← hy]; exact hw, fun c hc => (Docs.ws_iff c).mp (hb c hc)⟩
  · rintro ⟨a, v, rfl, hv⟩
    have : Docs.trimEnd (a ++ [','] ++ v) = a ++ [','] := by
      unfold Docs.trimEnd
      rw [List.reverse_append, List.dropWhile_append_of_pos fun c hc =>
        (Docs.ws_iff c).mpr (hv c (List.mem_reverse.mp hc)), List.reverse_append]
      simp [show Pages.isWhitespace ',' = false from by decide]
    rw [this]; simp

/-- **C100.** In the middle of an identifier among arguments, what is typed so far is replaced and becomes an argument of
its own. -/
theorem argument_inserted (c : Cursor) (pre post apply a b : Text) (h : Stands c pre post)
    (hs : c.syn = .varAccess) (hi : c.identLike = true) (hf : c.frm = c.offset) (hl : c.leaf = a ++ b) (hb : b ≠ [])
    (hc : c.cursor = c.offset + len8 a) (ha : c.argLike = true) :
    ∃ new, (EndsComma apply ∧ new = apply ∨ ¬ EndsComma apply ∧ new = apply ++ [',', ' ']) ∧
      Edited 0 c.text [mainEdit c apply] (pre ++ new ++ b ++ post) := by
  have hne : c.cursor ≠ c.offset + len8 c.leaf := by
    have := Position.len8_pos hb
    rw [hc, hl, len8_append]; omega
  have e : mainEdit c apply = ⟨c.offset, c.cursor, if endsWithComma apply then apply else apply ++ [',', ' ']⟩ := by
    simp only [mainEdit, selected_ident (.inr hs) hi hf]
    rw [if_pos ⟨by rw [hs]; decide, hne, ha⟩]
  refine ⟨if endsWithComma apply then apply else apply ++ [',', ' '], ?_, ?_⟩
  · by_cases hh : EndsComma apply
    · exact .inl ⟨hh, if_pos ((endsWithComma_iff _).mpr hh)⟩
    · exact .inr ⟨hh, if_neg fun hx => hh ((endsWithComma_iff _).mp hx)⟩
  · rw [e, List.append_assoc _ b post]
    exact edited_one (a := pre) (b := a) (by rw [h.text, hl]; simp) h.offset (by rw [hc, h.offset])

/-- **C100.** The edit of a completion for an identifier is where the cursor is. -/
theorem identifier_edit_at_cursor (c : Cursor) (pre post apply : Text) (h : Stands c pre post)
    (hs : c.syn = .callee ∨ c.syn = .varAccess) (hi : c.identLike = true) (hf : c.frm = c.offset) :
    (mainEdit c apply).start ≤ c.cursor ∧ c.cursor ≤ (mainEdit c apply).stop := by
  simp only [mainEdit, selected_ident hs hi hf]
  split
  · exact ⟨h.before, Nat.le_refl _⟩
  · exact ⟨h.before, h.behind⟩

/-! ## Labels and references -/

/-- **C101.** Accepting a label in `<…>` or behind an unclosed `<…` gives this label. -/
theorem label_completed (c : Cursor) (pre post name tail label : Text) (h : Stands c pre post)
    (hs : c.syn = .label) (hf : c.frm = c.offset + 1) (hc : c.offset < c.cursor)
    (hl : c.leaf = '<' :: name ++ tail) (ht : tail = ['>'] ∨ tail = [] ∧ post.head? ≠ some '>')
    (hn : '>' ∉ name ∧ '<' ∉ name) (hlab : '>' ∉ label ∧ '<' ∉ label ∧ label ≠ []) :
    ∃ apply, labelApply c label = some apply ∧
      Edited 0 c.text [mainEdit c apply] (pre ++ '<' :: label ++ '>' :: post) := by
  have hsel : selected c = some .label := by
    rw [selected, if_neg (by rw [hs]; simp), if_pos ⟨hs, hf.symm⟩]
  have hhead : headAt c.text c.frm = some (pre ++ ['<']) := by
    have : c.text = (pre ++ ['<']) ++ (name ++ tail ++ post) := by rw [h.text, hl]; simp
    rw [this, hf, h.offset]
    have h1 : len8 pre + 1 = len8 (pre ++ ['<']) := by rw [len8_append]; rfl
    rw [h1, headAt_append]
  obtain ⟨a, b, hab, hlen⟩ := h.between
  have htail : tailAt c.text c.cursor = some b := by rw [hab, ← hlen, tailAt_append]
  have happ : labelApply c label = some (label ++ if b.head? = some '>' then [] else ['>']) := by
    simp only [labelApply, hhead, htail, Option.bind_eq_bind, Option.bind_some, Option.pure_def, Option.some.injEq]
    by_cases hb : b.head? = some '>' <;> simp [hb]
  refine ⟨_, happ, ?_⟩
  have hlh : label.head? ≠ some '<' := by
    intro e
    cases label with
    | nil => cases e
    | cons x xs => simp at e; exact hlab.2.1 (by simp [e])
  have hll : label.getLast? ≠ some '>' := by
    intro e
    exact hlab.1 (List.mem_of_getLast? e)
  have hleafh : c.leaf.head? = some '<' := by rw [hl]; rfl
  have hst : len8 c.leaf = 1 + len8 name + len8 tail := by rw [hl, List.cons_append, len8_cons, len8_append]; simp [Char.utf8Size]; omega
  have happh : ∀ x : Text, (label ++ x).head? ≠ some '<' := by
    intro x
    cases hx : label with
    | nil => exact absurd hx hlab.2.2
    | cons y ys => rw [hx] at hlh; exact hlh
  simp only [mainEdit, hsel]
  rw [if_pos ⟨hleafh, happh _⟩]
  rcases ht with ht | ⟨ht, hpost⟩
  · subst ht
    have hleafl : c.leaf.getLast? = some '>' := by rw [hl, List.getLast?_append]; rfl
    have h1 : len8 ['>'] = 1 := rfl
    by_cases hb : b.head? = some '>'
    · rw [if_pos hb, List.append_nil, if_pos ⟨hleafl, hll⟩]
      have e : pre ++ '<' :: label ++ '>' :: post = (pre ++ ['<']) ++ label ++ (['>'] ++ post) := by simp
      rw [e]
      refine edited_one (b := name) (by rw [h.text, hl]; simp) ?_ ?_
      · rw [len8_append, h.offset]; rfl
      · rw [len8_append, h.offset, hst, h1]; simp [len8, Char.utf8Size]; omega
    · rw [if_neg hb, if_neg (by simp)]
      have e : pre ++ '<' :: label ++ '>' :: post = (pre ++ ['<']) ++ (label ++ ['>']) ++ post := by simp
      rw [e]
      refine edited_one (b := name ++ ['>']) (by rw [h.text, hl]; simp) ?_ ?_
      · rw [len8_append, h.offset]; rfl
      · rw [len8_append, h.offset, hst, h1, len8_append, h1]; simp [len8, Char.utf8Size]; omega
  · subst ht
    have hb : b.head? ≠ some '>' := by
      intro hb
      -- the cursor would be in front of a `>` in the name or behind the leaf
      have hpn : pre ++ ('<' :: name) ++ post = a ++ b := by rw [← hab, h.text, hl]; simp
      have hla : len8 pre + 1 ≤ len8 a := by rw [hlen, ← h.offset]; omega
      rcases List.append_eq_append_iff.mp hpn with ⟨x, hx1, hx2⟩ | ⟨x, hx1, hx2⟩
      · have h2 := h.behind
        rw [← hlen, hx1, h.offset, len8_append, len8_append, hst] at h2
        have h3 : len8 ('<' :: name) = 1 + len8 name := by rw [len8_cons]; rfl
        have : len8 x = 0 := by simp [len8_nil] at h2; omega
        have hx0 : x = [] := by
          cases x with
          | nil => rfl
          | cons y ys => have := Position.len8_pos (s := y :: ys) (by simp); omega
        rw [hx0, List.nil_append] at hx2
        exact hpost (hx2 ▸ hb)
      · cases x with
        | nil => simp at hx2; exact hpost (hx2 ▸ hb)
        | cons y ys =>
          rw [hx2] at hb
          simp at hb
          subst hb
          have hmem : '>' ∈ pre ++ '<' :: name := by rw [hx1]; simp
          -- it is in the name, as the cursor is behind the `<`
          rcases List.append_eq_append_iff.mp hx1 with ⟨z, hz1, hz2⟩ | ⟨z, hz1, hz2⟩
          · cases z with
            | nil => rw [hz1, List.append_nil] at hla; omega
            | cons w ws =>
              simp at hz2
              exact hn.1 (by rw [hz2.2]; simp)
          · rw [hz1, len8_append] at hla; omega
    have hleafl : ¬ (c.leaf.getLast? = some '>' ∧ (label ++ if b.head? = some '>' then [] else ['>']).getLast? ≠ some '>') := by
      rw [if_neg hb]; simp
    rw [if_neg hleafl, if_neg hb]
    have e : pre ++ '<' :: label ++ '>' :: post = (pre ++ ['<']) ++ (label ++ ['>']) ++ post := by simp
    rw [e]
    refine edited_one (b := name) (by rw [h.text, hl]; simp) ?_ ?_
    · rw [len8_append, h.offset]; rfl
    · rw [len8_append, h.offset, hst]; simp [len8, Char.utf8Size]; omega

theorem selected_label {c : Cursor} (hs : c.syn = .label) (hf : c.frm = c.offset + 1) : selected c = some .label := by
  rw [selected, if_neg (by rw [hs]; simp), if_pos ⟨hs, hf.symm⟩]

/-- **C101.** The edit for a label is where the cursor is, unless the cursor is between the closing `>` and another one. -/
theorem label_edit_at_cursor_partial (c : Cursor) (pre post name label apply : Text) (h : Stands c pre post)
    (hs : c.syn = .label) (hf : c.frm = c.offset + 1) (hc : c.offset < c.cursor) (hl : c.leaf = '<' :: name ++ ['>'])
    (ha : labelApply c label = some apply) (hp : c.cursor < c.offset + len8 c.leaf ∨ post.head? ≠ some '>') :
    (mainEdit c apply).start ≤ c.cursor ∧ c.cursor ≤ (mainEdit c apply).stop := by
  simp only [mainEdit, selected_label hs hf]
  constructor
  · split <;> omega
  · have hb := h.behind
    split
    · rename_i hx
      rcases Nat.lt_or_ge c.cursor (c.offset + len8 c.leaf) with hlt | hge
      · omega
      · exfalso
        rcases hp with hp | hp
        · omega
        · have hcur : c.cursor = c.offset + len8 c.leaf := by omega
          have ht : tailAt c.text c.cursor = some post := by
            rw [h.text, hcur, h.offset, ← len8_append, tailAt_append]
          have hh : headAt c.text c.frm = some (pre ++ ['<']) := by
            have : c.text = (pre ++ ['<']) ++ (name ++ ['>'] ++ post) := by rw [h.text, hl]; simp
            rw [this, hf, h.offset, show len8 pre + 1 = len8 (pre ++ ['<']) by rw [len8_append]; rfl, headAt_append]
          simp only [labelApply, hh, ht, Option.bind_eq_bind, Option.bind_some, Option.pure_def, Option.some.injEq] at ha
          refine hx.2 ?_
          rw [← ha]
          simp [hp]
    · exact hb

/-- In `<a>|>` the edit is in front of the cursor. -/
theorem label_edit_elsewhere : ∃ (c : Cursor) (pre post apply : Text), Stands c pre post ∧ c.syn = .label ∧
    c.frm = c.offset + 1 ∧ c.leaf = ['<', 'a', '>'] ∧ labelApply c ['b'] = some apply ∧
    (mainEdit c apply).stop < c.cursor := by
  refine ⟨⟨['<', 'a', '>', '>'], 1, 3, 0, ['<', 'a', '>'], .label, false, false⟩, [], ['>'], ['b'], ?_, rfl, rfl, rfl, ?_, ?_⟩
  · exact ⟨rfl, rfl, by decide, by decide, ['<', 'a', '>'], ['>'], rfl, rfl⟩
  · decide
  · decide

/-- **C101.** Accepting a label behind `@` gives the reference. -/
theorem reference_completed (c : Cursor) (pre post name label : Text) (h : Stands c pre post)
    (hs : c.syn = .ref) (hf : c.frm = c.offset + 1) (hl : c.leaf = '@' :: name) (hlab : label.head? ≠ some '@') :
    labelApply c label = some label ∧ Edited 0 c.text [mainEdit c label] (pre ++ '@' :: label ++ post) := by
  have hsel : selected c = some .ref := by
    rw [selected, if_neg (by rw [hs]; simp), if_neg (by rw [hs]; simp), if_pos ⟨hs, hf.symm⟩]
  obtain ⟨a, b, hab, hlen⟩ := h.between
  constructor
  · have hh : headAt c.text c.frm = some (pre ++ ['@']) := by
      have : c.text = (pre ++ ['@']) ++ (name ++ post) := by rw [h.text, hl]; simp
      rw [this, hf, h.offset, show len8 pre + 1 = len8 (pre ++ ['@']) by rw [len8_append]; rfl, headAt_append]
    have ht : tailAt c.text c.cursor = some b := by rw [hab, ← hlen, tailAt_append]
    simp [labelApply, hh, ht]
  · simp only [mainEdit, hsel]
    rw [if_pos ⟨by rw [hl]; rfl, hlab⟩]
    have e : pre ++ '@' :: label ++ post = (pre ++ ['@']) ++ label ++ post := by simp
    rw [e]
    refine edited_one (b := name) (by rw [h.text, hl]; simp) ?_ ?_
    · rw [len8_append, h.offset]; rfl
    · rw [len8_append, h.offset, hl, len8_cons]; simp [len8, Char.utf8Size]; omega

/-! ## Strings -/

/-- **C101.** Where nothing is typed yet, a value is inserted as it is written; a string in the quotes that are already
there. -/
theorem string_completed_partial (c : Cursor) (pre post s : Text) (hq : c.text = pre ++ ['"', '"'] ++ post)
    (hc : c.cursor = len8 pre + 1) (hf : c.frm = c.cursor) (hs : c.syn = .other) :
    valueApply c false false ('"' :: s ++ ['"']) = some s ∧
      Edited 0 c.text [mainEdit c s] (pre ++ '"' :: s ++ '"' :: post) := by
  have hsel : selected c = none := by
    rw [selected, if_neg (by rw [hs]; simp), if_neg (by rw [hs]; simp), if_neg (by rw [hs]; simp)]
  have e1 : c.text = (pre ++ ['"']) ++ ('"' :: post) := by rw [hq]; simp
  have e2 : c.cursor = len8 (pre ++ ['"']) := by rw [hc, len8_append]; rfl
  constructor
  · have e3 : stripQuoteEnd ('"' :: s ++ ['"']) = '"' :: s := by
      rw [stripQuoteEnd, if_pos (by rw [List.getLast?_append]; rfl), List.dropLast_concat]
    rw [valueApply, if_neg (by simp), hf, e2, e1, tailAt_append, headAt_append]
    simp only [Option.bind_eq_bind, Option.bind_some, Option.pure_def, List.head?_cons, if_true, e3]
    simp [stripQuoteStart]
  · simp only [mainEdit, hsel]
    have e : pre ++ '"' :: s ++ '"' :: post = (pre ++ ['"']) ++ s ++ ('"' :: post) := by simp
    rw [e]
    exact edited_one (b := []) (by rw [e1]; simp) (by rw [hf, e2]) (by rw [e2]; simp [len8])

/-- Behind what is typed of a string, the quotes are inserted again: `"ab|"` becomes `"ab"abc"`. -/
theorem typed_string_broken : ∃ (c : Cursor) (apply : Text), c.text = ['"', 'a', 'b', '"'] ∧ c.cursor = 3 ∧
    c.frm = c.cursor ∧ c.syn = .other ∧ valueApply c false false ['"', 'a', 'b', 'c', '"'] = some apply ∧
    Edited 0 c.text [mainEdit c apply] ['"', 'a', 'b', '"', 'a', 'b', 'c', '"'] :=
  ⟨⟨['"', 'a', 'b', '"'], 3, 3, 0, ['"', 'a', 'b', '"'], .other, false, false⟩, ['"', 'a', 'b', 'c'],
    rfl, rfl, rfl, rfl, by decide, edited_one (a := ['"', 'a', 'b']) (b := []) (c := ['"']) rfl (by decide) (by decide)⟩

/-! ## Cases -/

/-- `#te(x)` with the cursor behind `te`. -/
example : Edited 0 ['#', 't', 'e', '(', 'x', ')'] [mainEdit ⟨['#', 't', 'e', '(', 'x', ')'], 1, 3, 1, ['t', 'e'], .callee, true, false⟩
    ['t', 'e', 'x', 't']] ['#', 't', 'e', 'x', 't', '(', 'x', ')'] :=
  identifier_replaced ⟨['#', 't', 'e', '(', 'x', ')'], 1, 3, 1, ['t', 'e'], .callee, true, false⟩ ['#'] ['(', 'x', ')'] _
    ⟨rfl, rfl, by decide, by decide, ['#', 't', 'e'], _, rfl, rfl⟩ (.inl rfl) rfl rfl
    (.inl rfl)

/-- `f(abc)` with the cursor behind `a` as an argument. -/
example : ∃ new, (EndsComma ['x'] ∧ new = ['x'] ∨ ¬ EndsComma ['x'] ∧ new = ['x'] ++ [',', ' ']) ∧
    Edited 0 ['f', '(', 'a', 'b', 'c', ')'] [mainEdit ⟨['f', '(', 'a', 'b', 'c', ')'], 2, 3, 2, ['a', 'b', 'c'], .varAccess, true, true⟩
      ['x']] (['f', '('] ++ new ++ ['b', 'c'] ++ [')']) :=
  argument_inserted ⟨['f', '(', 'a', 'b', 'c', ')'], 2, 3, 2, ['a', 'b', 'c'], .varAccess, true, true⟩ ['f', '('] [')'] _ ['a'] ['b', 'c'] ⟨rfl, rfl, by decide, by decide, ['f', '(', 'a'], _, rfl, rfl⟩ rfl rfl rfl
    rfl (by decide) rfl rfl

/-- `= A <in>` with the cursor behind `i`. -/
example : ∃ apply, labelApply ⟨['A', '<', 'i', 'n', '>'], 2, 3, 1, ['<', 'i', 'n', '>'], .label, false, false⟩ ['o', 'u', 't'] = some apply ∧
    Edited 0 ['A', '<', 'i', 'n', '>'] [mainEdit ⟨['A', '<', 'i', 'n', '>'], 2, 3, 1, ['<', 'i', 'n', '>'], .label, false, false⟩ apply]
      ['A', '<', 'o', 'u', 't', '>'] :=
  label_completed _ ['A'] [] ['i', 'n'] ['>'] _ ⟨rfl, rfl, by decide, by decide, ['A', '<', 'i'], ['n', '>'], rfl, rfl⟩ rfl rfl
    (by decide) rfl (.inl rfl) (by decide) (by decide)

/-- `@i.` with the cursor behind `i`. -/
example : labelApply ⟨['@', 'i', ' '], 1, 2, 0, ['@', 'i'], .ref, false, false⟩ ['o'] = some ['o'] ∧
    Edited 0 ['@', 'i', ' '] [mainEdit ⟨['@', 'i', ' '], 1, 2, 0, ['@', 'i'], .ref, false, false⟩ ['o']] ['@', 'o', ' '] :=
  reference_completed _ [] [' '] ['i'] _ ⟨rfl, rfl, by decide, by decide, ['@', 'i'], _, rfl, rfl⟩ rfl rfl rfl (by decide)

end Tinymist.Complete
