import Verif.Lemmas.Position
/-!
# C19, C20: positions and text synchronisation

Both encodings. `Plain` (Spec) is what the text synchronisation needs: no line separators besides `\n`, `\r\n` and
`\r`, and, for UTF-8, no characters beyond ASCII.
-/
namespace Tinymist.Position

/-! ## C19 -/

/-- **C19, round trip.** A character boundary has a position, and that position is converted back to it. -/
theorem position_round_trip (enc : Encoding) (s pre post : Text) (h : s = pre ++ post) :
    ∃ line ch, toLsp enc s (len8 pre) = some (line, ch) ∧ toTypst enc s line ch = some (len8 pre) := by
  obtain ⟨A, hd, t, B, hat, e1, _⟩ := at_of s pre post h
  rw [e1, len8_append]
  exact ⟨_, _, toLsp_at enc hat, toTypst_at enc hat⟩

/-- Line by line, character by character. -/
def before (p q : Nat × Nat) : Prop := p.1 < q.1 ∨ p.1 = q.1 ∧ p.2 < q.2

/-- **C19, monotone.** A later boundary has a later position. -/
theorem position_monotone (enc : Encoding) (s pre d post : Text) (h : s = pre ++ d ++ post) (hd : d ≠ []) :
    ∃ p q, toLsp enc s (len8 pre) = some p ∧ toLsp enc s (len8 (pre ++ d)) = some q ∧ before p q := by
  obtain ⟨A, hd1, t, B, hat, e1, f1⟩ := at_of s pre (d ++ post) (by rw [h, List.append_assoc])
  obtain ⟨A', hd2, t', B', hat', e2, f2⟩ := at_of s (pre ++ d) post h
  refine ⟨(A.length, col enc hd1), (A'.length, col enc hd2), ?_, ?_, ?_⟩
  · rw [e1, len8_append]; exact toLsp_at enc hat
  · rw [e2, len8_append]; exact toLsp_at enc hat'
  · rcases Nat.lt_trichotomy A.length A'.length with hlt | heq | hgt
    · exact Or.inl hlt
    · refine Or.inr ⟨heq, ?_⟩
      have hA : A = A' := by rw [← hat.take, ← hat'.take, heq]
      subst hA
      have : hd2 = hd1 ++ d := by
        rw [e1, List.append_assoc] at e2
        exact (List.append_cancel_left e2).symm
      show col enc hd1 < col enc hd2
      rw [this, col_append]
      have := col_pos enc hd
      omega
    · exfalso
      have hl := congrArg List.length e2
      have hpre := congrArg List.length e1
      obtain ⟨X, hA⟩ : ∃ X, A = A' ++ (hd2 ++ t') :: X := by
        have h1 : A = (lines s).take A.length := hat.take.symm
        rw [hat'.eq, List.take_append, List.take_of_length_le (by omega)] at h1
        obtain ⟨n, hn⟩ : ∃ n, A.length - A'.length = n + 1 := ⟨A.length - A'.length - 1, by omega⟩
        rw [hn, List.take_succ_cons] at h1
        exact ⟨_, h1⟩
      rw [hA] at hpre
      simp at hl hpre
      have := List.length_pos_iff.mpr hd
      omega

/-- **C19, injective.** Different boundaries have different positions. -/
theorem position_injective (enc : Encoding) (s pre post pre' post' : Text) (h : s = pre ++ post)
    (h' : s = pre' ++ post') (e : toLsp enc s (len8 pre) = toLsp enc s (len8 pre')) : pre = pre' := by
  obtain ⟨l, c, h1, h2⟩ := position_round_trip enc s pre post h
  obtain ⟨l', c', h1', h2'⟩ := position_round_trip enc s pre' post' h'
  rw [h1, h1'] at e
  injection e with e; injection e with e e'
  rw [e, e'] at h2
  rw [h2] at h2'
  injection h2' with hb
  have h3 := splitAtByte_append pre post
  have h4 := splitAtByte_append pre' post'
  rw [← h] at h3
  rw [← h', ← hb] at h4
  rw [h3] at h4
  injection h4 with h4; injection h4

/-- **C19, clamping.** A line past the last one, or a column past the end of the last line, is the end of the
document. -/
theorem past_end_clamped (enc : Encoding) (s : Text) (line ch : Nat)
    (h : (lines s).length ≤ line ∨ ∃ l, (lines s).getLast? = some l ∧ line + 1 = (lines s).length ∧ units enc l ≤ ch) :
    toTypst enc s line ch = some (len8 s) := by
  simp only [toTypst]
  rcases h with h | ⟨l, hl, h1, h2⟩
  · rw [if_pos h]
  · rw [if_neg (by omega), if_pos]
    refine ⟨h1, ?_⟩
    have hd : (lines s).drop line = [l] := by
      obtain ⟨ys, hy⟩ := List.getLast?_eq_some_iff.mp hl
      rw [hy] at h1 ⊢
      simp at h1
      rw [h1, List.drop_left']
      rfl
    rw [hd]
    cases enc <;> simpa [lastLen, units] using h2

/-- Whatever a client sends, an offset found for it is on a character boundary of the document. -/
theorem lands_on_boundary (enc : Encoding) (s : Text) (line ch b : Nat) (h : toTypst enc s line ch = some b) :
    ∃ pre post, s = pre ++ post ∧ b = len8 pre := by
  have hend : some (len8 s) = some b → ∃ pre post, s = pre ++ post ∧ b = len8 pre :=
    fun h => ⟨s, [], by simp, by injection h with h; exact h.symm⟩
  simp only [toTypst] at h
  split at h
  · exact hend h
  · split at h
    · exact hend h
    · cases enc with
      | utf8 =>
        simp only [lineColumnToByte, Option.map_eq_some_iff] at h
        obtain ⟨l, hl, rfl⟩ := h
        refine ⟨((lines s).take line).flatten ++ l.take ch, l.drop ch ++ ((lines s).drop (line + 1)).flatten, ?_, ?_⟩
        · have hd : ((lines s).drop line) = l :: (lines s).drop (line + 1) := by
            obtain ⟨hlt, rfl⟩ := List.getElem?_eq_some_iff.mp hl
            exact List.drop_eq_getElem_cons hlt
          conv => lhs; rw [← flatten_lines s, ← take_drop _ line, hd, List.flatten_cons]
          simp only [List.append_assoc, List.append_cancel_left_eq]
          rw [← List.append_assoc, List.take_append_drop]
        · rw [len8_append]
      | utf16 =>
        simp only [Option.bind_eq_bind, Option.bind_eq_some_iff, utf16ToByte] at h
        obtain ⟨_, _, _, _, h⟩ := h
        obtain ⟨p, q, e, rfl⟩ := walk_some h
        refine ⟨_ ++ p, q, ?_, (len8_append _ _).symm⟩
        rw [List.append_assoc, ← e, take_drop, flatten_lines]

/-- With UTF-8 every position is converted. -/
theorem utf8_total (s : Text) (line ch : Nat) : (toTypst .utf8 s line ch).isSome = true := by
  simp only [toTypst]
  split
  · rfl
  · split
    · rfl
    · rename_i h _
      rw [lineColumnToByte, List.getElem?_eq_getElem (by omega)]
      rfl

/-- The LSP says that a column past the end of a line means the end of the line. With UTF-16 it is taken as far
beyond: into the following lines, so that conversion back is not monotone in general … -/
theorem column_past_line_spills :
    toTypst .utf16 "a\nbc\n".toList 0 3 = some 3 ∧ toTypst .utf16 "a\nbc\n".toList 1 0 = some 2 := by decide

/-- … and past the end of the document it is not converted at all; for a change notification that is a panic. -/
theorem column_past_document_fails (s : Text) (line ch : Nat) (h : line + 1 < (lines s).length)
    (hc : len16 s < ch) : toTypst .utf16 s line ch = none := by
  simp only [toTypst]
  rw [if_neg (by omega), if_neg (by omega)]
  cases h1 : lineToByte (lines s) line with
  | none => rfl
  | some b =>
    simp only [Option.bind_eq_bind, Option.bind_some]
    cases h2 : byteToUtf16 (lines s) b with
    | none => rfl
    | some u =>
      simp only [Option.bind_some, utf16ToByte]
      apply walk_none
      rw [← len16_append, take_drop, flatten_lines]
      omega

theorem column_past_document_panics (s : Text) (line ch : Nat) (r : Nat × Nat) (w : Text)
    (h : line + 1 < (lines s).length) (hc : len16 s < ch) :
    editSource .utf16 s [⟨some ((line, ch), r), w⟩] = none := by
  simp only [editSource, List.foldlM_cons, applyChange, toTypstRange, column_past_document_fails s line ch h hc]
  rfl

/-- **C19 for clients.** In a plain text, the position of a boundary that does not split `\r\n` is the one the client
uses for that place. -/
theorem reported_position_is_meant (enc : Encoding) (s pre post : Text) (h : s = pre ++ post) (hs : Plain enc s)
    (hsp : ¬ (pre.getLast? = some '\r' ∧ post.head? = some '\n')) :
    ∃ line ch, toLsp enc s (len8 pre) = some (line, ch) ∧ Pos enc s line ch post := by
  obtain ⟨line, ch, hp⟩ := exists_pos enc pre post hsp
  rw [← h] at hp
  exact ⟨line, ch, (pos_offset hp hs h).2, hp⟩

/-- With UTF-8 columns are counted in characters, not in bytes. -/
theorem utf8_reports_characters :
    toLsp .utf8 "éa".toList 2 = some (0, 1) ∧ Pos .utf8 "éa".toList 0 2 "a".toList :=
  ⟨by decide, Pos.here ['é'] ['a'] (by intro c hc; simp at hc; subst hc; decide)⟩

/-! ## C20 -/

/-- One change. -/
theorem change_applied {enc : Encoding} {s s' : Text} {c : Change} (hs : Plain enc s)
    (h : ClientChange enc s c s') : applyChange enc s c = some s' := by
  cases h with
  | full => rfl
  | range pre mid post w l1 c1 l2 c2 h1 h2 =>
    have e1 := (pos_offset h1 hs (List.append_assoc ..)).1
    have e2 := (pos_offset h2 hs rfl).1
    simp only [applyChange, toTypstRange, e1, e2, Option.bind_eq_bind, Option.bind_some, Option.pure_def]
    rw [len8_append]
    exact replaceRange_append ..

/-- **C20 (partial).** As long as the texts are plain, a sequence of changes with positions valid in the client's
document leaves the server with the client's document. Missing: other line separators, and non-ASCII text with the
UTF-8 encoding, for which it is false (below). -/
theorem texts_stay_equal_partial {enc : Encoding} {s s' : Text} {cs : List Change}
    (h : ClientEdits enc s cs s') : editSource enc s cs = some s' := by
  induction h with
  | nil => rfl
  | cons hp h _ ih =>
    simp only [editSource, List.foldlM_cons, change_applied hp h]
    exact ih

/-- What is needed for UTF-16, without mentioning the encoding of columns: all texts, including the inserted ones,
use the three standard line ends only. -/
theorem plain_utf16 (s : Text) (h : ∀ c ∈ s, isNewline c = true → c = '\n' ∨ c = '\r') : Plain .utf16 s :=
  ⟨h, by intro h; cases h⟩

/-- A client may replace any part of a document; such a change has positions (UTF-16 or UTF-8), unless it splits a
`\r\n`. -/
theorem every_edit_has_positions (enc : Encoding) (pre mid post w : Text)
    (h1 : ¬ (pre.getLast? = some '\r' ∧ (mid ++ post).head? = some '\n'))
    (h2 : ¬ ((pre ++ mid).getLast? = some '\r' ∧ post.head? = some '\n')) :
    ∃ r, ClientChange enc (pre ++ mid ++ post) ⟨some r, w⟩ (pre ++ w ++ post) := by
  obtain ⟨l1, c1, p1⟩ := exists_pos enc pre (mid ++ post) h1
  obtain ⟨l2, c2, p2⟩ := exists_pos enc (pre ++ mid) post h2
  rw [← List.append_assoc] at p1
  exact ⟨_, .range _ _ _ _ _ _ _ _ p1 p2⟩

/-- A client on UTF-8 replaces `a` by `b` in `éa` and the server inserts instead. -/
theorem utf8_texts_diverge :
    ∃ c, ClientChange .utf8 "éa".toList c "éb".toList ∧
      editSource .utf8 "éa".toList [c] = some "éab".toList := by
  refine ⟨⟨some ((0, 2), (0, 3)), ['b']⟩, ?_, by decide⟩
  exact .range ['é'] ['a'] [] ['b'] 0 2 0 3 (Pos.here ['é'] ['a'] (by intro c hc; simp at hc; subst hc; decide))
    (Pos.here ['é', 'a'] [] (by intro c hc; simp at hc; rcases hc with rfl | rfl <;> decide))

/-- A vertical tab in the text: the client deletes `c`, the server `b`. -/
theorem separators_diverge :
    ∃ c, ClientChange .utf16 "a\x0Bb\nc".toList c "a\x0Bb\n".toList ∧
      editSource .utf16 "a\x0Bb\nc".toList [c] = some "a\x0B\nc".toList := by
  refine ⟨⟨some ((1, 0), (1, 1)), []⟩, ?_, by decide⟩
  have hb : noEol ['a', '\x0B', 'b'] := by
    intro c hc; simp at hc; rcases hc with rfl | rfl | rfl <;> decide
  exact .range ['a', '\x0B', 'b', '\n'] ['c'] [] [] 1 0 1 1
    (Pos.lf ['a', '\x0B', 'b'] ['c'] 0 0 ['c'] hb (Pos.here [] ['c'] (by intro c hc; cases hc)))
    (Pos.lf ['a', '\x0B', 'b'] ['c'] 0 1 [] hb (Pos.here ['c'] [] (by intro c hc; simp at hc; subst hc; decide)))

/-- A range whose end is before its start panics. -/
theorem reversed_range_panics (enc : Encoding) (s w : Text) (l1 c1 l2 c2 a b : Nat)
    (h1 : toTypst enc s l1 c1 = some a) (h2 : toTypst enc s l2 c2 = some b) (hr : b < a) :
    editSource enc s [⟨some ((l1, c1), (l2, c2)), w⟩] = none := by
  simp only [editSource, List.foldlM_cons, applyChange, toTypstRange, h1, h2, Option.bind_eq_bind, Option.bind_some,
    Option.pure_def, replaceRange]
  rw [if_neg (by omega)]
  rfl

/-- With UTF-8, ordered ranges never panic. -/
theorem utf8_ordered_no_panic (s w : Text) (l1 c1 l2 c2 a b : Nat)
    (h1 : toTypst .utf8 s l1 c1 = some a) (h2 : toTypst .utf8 s l2 c2 = some b) (hr : a ≤ b) :
    ∃ s', editSource .utf8 s [⟨some ((l1, c1), (l2, c2)), w⟩] = some s' := by
  obtain ⟨p, q, e, rfl⟩ := lands_on_boundary _ _ _ _ _ h1
  obtain ⟨p', q', e', rfl⟩ := lands_on_boundary _ _ _ _ _ h2
  have hpre : ∃ m, p' = p ++ m := by
    rcases List.append_eq_append_iff.mp (e.symm.trans e') with ⟨m, hm, _⟩ | ⟨m, hm, _⟩
    · exact ⟨m, hm⟩
    · rw [hm, len8_append] at hr
      have : m = [] := by
        have := length_le_len8 m
        exact List.eq_nil_of_length_eq_zero (by omega)
      subst this
      exact ⟨[], by rw [hm]; simp⟩
  obtain ⟨m, rfl⟩ := hpre
  refine ⟨p ++ w ++ q', ?_⟩
  simp only [editSource, List.foldlM_cons, applyChange, toTypstRange, h1, h2, Option.bind_eq_bind, Option.bind_some,
    Option.pure_def]
  rw [e', len8_append, replaceRange_append]
  rfl

/-! ## Cases -/

/-- A text with an astral character, `\r\n` and `\r`, and a boundary in it. -/
example : toLsp .utf16 "é𝄩x\r\ny\rz".toList (len8 "é𝄩".toList) = some (0, 3) := by decide
example : toLsp .utf16 "é𝄩x\r\ny\rz".toList (len8 "é𝄩x\r\ny\r".toList) = some (2, 0) := by decide
example : Plain .utf16 "é𝄩x\r\ny\rz".toList := ⟨by decide, by intro h; cases h⟩

/-- Two changes in a row. -/
example : editSource .utf16 "a𝄩b\nc".toList
    [⟨some ((0, 3), (1, 1)), "xy".toList⟩, ⟨some ((0, 0), (0, 1)), []⟩] = some "𝄩xy".toList := by decide

example : ∃ r r', ClientEdits .utf16 "a𝄩b\nc".toList [⟨some r, "xy".toList⟩, ⟨some r', []⟩] "𝄩xy".toList := by
  obtain ⟨r, h⟩ := every_edit_has_positions .utf16 "a𝄩".toList "b\nc".toList [] "xy".toList (by decide) (by decide)
  obtain ⟨r', h'⟩ := every_edit_has_positions .utf16 [] "a".toList "𝄩xy".toList [] (by decide) (by decide)
  exact ⟨r, r', .cons (plain_utf16 _ (by decide)) h (.cons (plain_utf16 _ (by decide)) h' (.nil _))⟩

/-- What is counted in UTF-16: one unit for a character of the first 2^16, two for another (a pair of surrogates). -/
theorem utf16_units (s : Text) :
    units .utf16 s = s.length + (s.filter fun c => decide (c.toNat ≥ 2 ^ 16)).length := by
  show len16 s = _
  induction s with
  | nil => rfl
  | cons c s ih =>
    rw [len16_cons, ih, u16]
    by_cases h : c.toNat ≥ 2 ^ 16
    · have : ¬ c.val < 0x10000 := by
        rw [UInt32.lt_iff_toNat_lt]
        exact Nat.not_lt.mpr h
      rw [if_neg this, List.filter_cons_of_pos (by simpa using h)]
      simp only [List.length_cons]
      omega
    · have : c.val < 0x10000 := by
        rw [UInt32.lt_iff_toNat_lt]
        exact Nat.not_le.mp h
      rw [if_pos this, List.filter_cons_of_neg (by simpa using h)]
      simp only [List.length_cons]
      omega

/-- The seven characters that end a line for the compiler. Two of them, and their pair, do so for a client. -/
theorem line_ends (c : Char) :
    isNewline c = true ↔ c ∈ ['\n', '\r', '\x0B', '\x0C', '\u0085', '\u2028', '\u2029'] := by
  simp only [isNewline, Bool.or_eq_true, decide_eq_true_eq, List.mem_cons, List.not_mem_nil, or_false]
  grind

/-- **C19.** An offset past the end of a document is reported as a position that means the end. -/
theorem past_end_reported (enc : Encoding) (s : Text) (b : Nat) (h : len8 s < b) :
    ∃ line ch, toLsp enc s b = some (line, ch) ∧ ch = 0 ∧ toTypst enc s line ch = some (len8 s) := by
  refine ⟨(lines s).length, 0, ?_, rfl, ?_⟩
  · simp only [toLsp]
    rw [if_pos h]
  · exact past_end_clamped enc s _ _ (.inl (Nat.le_refl _))

end Tinymist.Position
