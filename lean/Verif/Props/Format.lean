import Verif.Lemmas.Format
import Verif.Props.Position

/-!
# C36: the edit of a formatting request turns the document into the formatter's output
-/

namespace Tinymist.Format

open Tinymist.Position

deriving instance DecidableEq for Change

/-- How any two different texts compare: what both begin with, what both then end with, and between them two
texts of which one is empty or which end in different characters. -/
theorem split_texts (old new : Text) (hne : old ≠ new) :
    ∃ p x y s, old = p ++ (x ++ s) ∧ new = p ++ (y ++ s) ∧
      (x ++ s = [] ∨ y ++ s = [] ∨ (x ++ s).head? ≠ (y ++ s).head?) ∧
      (x = [] ∨ y = [] ∨ ∃ x' y' c d, x = x' ++ [c] ∧ y = y' ++ [d] ∧ c ≠ d) := by
  obtain ⟨p, o, n, rfl, rfl, h⟩ := split_prefix old new
  obtain ⟨x, y, s, rfl, rfl, h'⟩ := split_suffix o n
  exact ⟨p, x, y, s, rfl, rfl, h, h'⟩

theorem head_snoc (x s : Text) (c : Char) : (x ++ c :: s).head? = (x ++ [c]).head? := by
  cases x <;> rfl

/-- **C36, exactly when.** For every document and every output of a formatter: the request computes an edit that turns
the document into the output, unless the parts that differ end in two different characters whose UTF-8 encodings end
in the same byte. -/
theorem edit_turns_iff (old new : Text) :
    (∃ r, calcDiff old new = some r ∧ Turns old new r) ↔ ¬ ConfusableEnds old new := by
  constructor
  · rintro ⟨r, hr, ht⟩ ⟨p, x, y, c, d, s, rfl, rfl, hh, hc⟩
    rw [← head_snoc x s c, ← head_snoc y s d] at hh
    exact not_turns p x y s c d hh hc r hr ht
  · intro hno
    by_cases hne : old = new
    · subst hne
      exact ⟨none, calcDiff_same old, rfl⟩
    · obtain ⟨p, x, y, s, rfl, rfl, h1, h2⟩ := split_texts old new hne
      have h0 : commonLen (Utf8.encode x).reverse (Utf8.encode y).reverse = 0 := by
        rcases h2 with rfl | rfl | ⟨x', y', c, d, rfl, rfl, hcd⟩
        · rfl
        · rw [commonLen_comm]; rfl
        · rw [encode_snoc, encode_snoc]
          rcases Nat.eq_zero_or_pos (commonLen ((Utf8.encodeChar c).reverse ++ (Utf8.encode x').reverse)
            ((Utf8.encodeChar d).reverse ++ (Utf8.encode y').reverse)) with h | h
          · exact h
          · refine absurd ⟨p, x', y', c, d, s, by simp, by simp, ?_, hcd, (common_end_pos c d _ _).mp h⟩ hno
            rcases h1 with h1 | h1 | h1
            · simp at h1
            · simp at h1
            · rw [← head_snoc x' s c, ← head_snoc y' s d]; simpa using h1
      refine ⟨_, calcDiff_good p x y s hne h1 h0, ?_⟩
      show replaceRange _ _ _ _ = _
      have := replaceRange_append p x s y
      simpa using this

theorem encodeChar_ascii {c : Char} (h : c.toNat < 128) : Utf8.encodeChar c = [c.toNat] := by
  simp [Utf8.encodeChar, h]

theorem last_byte_ascii {c d : Char} (hc : c.toNat < 128)
    (h : (Utf8.encodeChar c).getLast? = (Utf8.encodeChar d).getLast?) : c = d := by
  rw [encodeChar_ascii hc] at h
  obtain ⟨b, bs, hd, hb, hbs⟩ := encode_shape d
  by_cases hd' : d.toNat < 128
  · rw [encodeChar_ascii hd'] at h
    simp at h
    exact Char.toNat_inj.mp h
  · exfalso
    have hlen : 1 < (Utf8.encodeChar d).length := by
      rw [Utf8.encodeChar_length]; unfold Utf8.len8; split
      · omega
      · split
        · omega
        · split <;> omega
    rw [hd] at hlen h
    cases bs with
    | nil => simp at hlen
    | cons b' bs =>
      rw [List.getLast?_cons_cons] at h
      simp only [List.getLast?_singleton] at h
      have hm : c.toNat ∈ b' :: bs := List.mem_of_getLast? h.symm
      have := hbs _ hm
      simp [Utf8.isCont] at this
      omega

/-- ASCII characters are never confused. -/
theorem ascii_not_confusable {c d : Char} (h : c.toNat < 128 ∨ d.toNat < 128) : ¬ Confusable c d := by
  rintro ⟨hne, hl⟩
  rcases h with h | h
  · exact hne (last_byte_ascii h hl)
  · exact hne (last_byte_ascii h hl.symm).symm

/-- **C36, partial.** A document in ASCII is turned into the output, whatever the output. -/
theorem ascii_edit_partial (old new : Text) (h : ∀ c ∈ old, c.toNat < 128) :
    ∃ r, calcDiff old new = some r ∧ Turns old new r := by
  rw [edit_turns_iff]
  rintro ⟨p, x, y, c, d, s, rfl, rfl, _, hc⟩
  exact ascii_not_confusable (.inl (h c (by simp))) hc

/-- **C36, partial.** A formatter that changes only ASCII characters (spaces and punctuation, say): whatever other
characters the document has, when the outputs agree on them the edit is right. Said here for a change of one stretch,
however long. -/
theorem ascii_change_partial (p x y s : Text) (hx : ∀ c ∈ x, c.toNat < 128) (hy : ∀ c ∈ y, c.toNat < 128) :
    ∃ r, calcDiff (p ++ x ++ s) (p ++ y ++ s) = some r ∧ Turns (p ++ x ++ s) (p ++ y ++ s) r := by
  rw [edit_turns_iff]
  rintro ⟨q, x', y', c, d, t, e1, e2, hh, hc⟩
  have hcx := ascii_not_confusable (c := c) (d := d)
  -- the last characters that differ are within the stretch
  have key : ∀ (a b u v t s : Text) (c d : Char), a ++ s = u ++ c :: t → b ++ s = v ++ d :: t → c ≠ d →
      ∃ m, t = m ++ s := by
    intro a b u v t s c d h1 h2 hne
    rcases List.append_eq_append_iff.mp h1 with ⟨m, g1, g2⟩ | ⟨m, g1, g2⟩
    · cases m with
      | nil => exfalso
               simp only [List.nil_append] at g2
               subst g2
               have : b ++ c :: t = v ++ d :: t := h2
               have h3 : (b ++ [c]) ++ t = (v ++ [d]) ++ t := by simpa using this
               have := (List.append_inj' (List.append_cancel_right h3) rfl).2
               exact hne (by simpa using this)
      | cons e m =>
        exfalso
        subst g2
        have h3 : (b ++ (e :: m) ++ [c]) ++ t = (v ++ [d]) ++ t := by simpa using h2
        have := (List.append_inj' (List.append_cancel_right h3) rfl).2
        exact hne (by simpa using this)
    · cases m with
      | nil =>
        exfalso
        simp only [List.nil_append] at g2
        rw [← g2] at h2
        have h3 : (b ++ [c]) ++ t = (v ++ [d]) ++ t := by simpa using h2
        have := (List.append_inj' (List.append_cancel_right h3) rfl).2
        exact hne (by simpa using this)
      | cons e m =>
        injection g2 with g2 g3
        exact ⟨m, g3⟩
  obtain ⟨m, rfl⟩ := key (p ++ x) (p ++ y) (q ++ x') (q ++ y') t s c d (by simpa using e1) (by simpa using e2) hc.1
  have f1 : p ++ x = q ++ x' ++ c :: m := by
    have : (p ++ x) ++ s = (q ++ x' ++ c :: m) ++ s := by simpa using e1
    exact List.append_cancel_right this
  have f2 : p ++ y = q ++ y' ++ d :: m := by
    have : (p ++ y) ++ s = (q ++ y' ++ d :: m) ++ s := by simpa using e2
    exact List.append_cancel_right this
  rcases List.append_eq_append_iff.mp f1 with ⟨k, g1, g2⟩ | ⟨k, g1, g2⟩
  · exact hcx (.inl (hx c (by rw [g2]; simp))) hc
  · -- the common start reaches over the character in the one text
    rcases List.append_eq_append_iff.mp f2 with ⟨k', g1', g2'⟩ | ⟨k', g1', g2'⟩
    · exact hcx (.inr (hy d (by rw [g2']; simp))) hc
    · cases k with
      | nil =>
        simp only [List.nil_append] at g2
        exact hcx (.inl (hx c (by rw [← g2]; simp))) hc
      | cons e k =>
        cases k' with
        | nil =>
          simp only [List.nil_append] at g2'
          exact hcx (.inr (hy d (by rw [← g2']; simp))) hc
        | cons e' k' =>
          injection g2 with g2 g3
          injection g2' with g2' g3'
          subst g2; subst g2'
          rw [g1, List.append_assoc, List.append_assoc] at g1'
          have g4 := List.append_cancel_left g1'
          apply hh
          have e3 : (x' ++ [c]).head? = (x' ++ c :: k).head? := by cases x' <;> rfl
          have e4 : (y' ++ [d]).head? = (y' ++ d :: k').head? := by cases y' <;> rfl
          rw [e3, e4, g4]

/-- **C36 for the client.** The edits as they are sent, in the positions the client uses: in a plain document with no
carriage returns, applying them gives the output. -/
theorem client_gets_output_partial (enc : Encoding) (old new : Text) (hp : Plain enc old) (hcr : '\r' ∉ old)
    (hc : ¬ ConfusableEnds old new) :
    ∃ cs, formatEdits enc old new = some cs ∧ ClientEdits enc old cs new := by
  obtain ⟨r, hr, ht⟩ := (edit_turns_iff old new).mpr hc
  unfold formatEdits
  rw [hr]
  cases r with
  | none =>
    have : old = new := ht
    subst this
    exact ⟨[], rfl, .nil _⟩
  | some r =>
    obtain ⟨⟨a, b⟩, w⟩ := r
    have ht' : replaceRange old a b w = some new := ht
    simp only [replaceRange] at ht'
    split at ht'
    · rename_i hab
      simp only [Option.bind_eq_bind] at ht'
      rw [Option.bind_eq_some_iff] at ht'
      obtain ⟨⟨pre, r1⟩, h1, ht'⟩ := ht'
      rw [Option.bind_eq_some_iff] at ht'
      obtain ⟨⟨mid, post⟩, h2, ht'⟩ := ht'
      obtain ⟨e1, l1⟩ := splitAtByte_some h1
      obtain ⟨e2, l2⟩ := splitAtByte_some h2
      simp only at e2
      subst e2
      injection ht' with ht'
      simp only at ht'
      have hlast : ∀ l : Text, (∀ c ∈ l, c ∈ old) → ∀ q : Text, ¬ (l.getLast? = some '\r' ∧ q.head? = some '\n') := by
        intro l hl q h
        exact hcr (hl _ (List.mem_of_getLast? h.1))
      obtain ⟨la, ca, p1, q1⟩ := reported_position_is_meant enc old pre (mid ++ post) e1 hp
        (hlast pre (by intro c hc; rw [e1]; simp [hc]) _)
      have e3 : old = (pre ++ mid) ++ post := by rw [e1]; simp
      obtain ⟨lb, cb, p2, q2⟩ := reported_position_is_meant enc old (pre ++ mid) post e3 hp
        (hlast (pre ++ mid) (by
          intro c hc
          rw [e3]
          exact List.mem_append_left _ hc) _)
      have eb : b = len8 (pre ++ mid) := by rw [len8_append]; omega
      refine ⟨[⟨some ((la, ca), (lb, cb)), w⟩], ?_, ?_⟩
      · simp only [Option.bind_eq_bind, Option.bind_some]
        rw [l1, eb, p1, p2]; rfl
      · rw [← ht']
        rw [e3] at q1 q2 hp ⊢
        exact .cons hp (.range pre mid post w la ca lb cb q1 q2) (.nil _)
    · cases ht'

/-- Meets the hypotheses: spaces around accented letters. -/
example : formatEdits .utf16 "#let  é =1\nü".toList "#let é = 1\nü".toList =
    some [⟨some ((0, 5), (0, 9)), "é = ".toList⟩] := by decide

/-- **C36 fails, silently.** Changing `é` to `ĩ` computes an edit that changes nothing. -/
theorem lost_change : ∃ r, calcDiff "é".toList "ĩ".toList = some (some r) ∧
    replaceRange "é".toList r.1.1 r.1.2 r.2 = some "é".toList :=
  ⟨((0, 0), []), by decide, by decide⟩

/-- **C36 fails, with a panic.** Changing `é` to `𝄩` subtracts below zero. -/
theorem underflow : calcDiff "é".toList "𝄩".toList = none := by decide

/-- **C36 fails for carriage returns.** Changing `\r\n` to `\n` deletes up to a position that is not one of the
client's: column 2 of a line that has one character. -/
theorem crlf_position : formatEdits .utf16 "a\r\n".toList "a\n".toList = some [⟨some ((0, 1), (0, 2)), []⟩] ∧
    ¬ ∃ post, Pos .utf16 "a\r\n".toList 0 2 post := by
  refine ⟨by decide, ?_⟩
  rintro ⟨post, h⟩
  generalize hs : "a\r\n".toList = s at h
  generalize hl : 0 = l at h
  generalize hcc : 2 = ch at h
  cases h with
  | here cur rest hno =>
    have hs' : ['a', '\r', '\n'] = cur ++ post := hs
    match cur, hno, hcc, hs' with
    | [], _, hcc, _ => cases hcc
    | [x], _, hcc, hs' =>
      have : x = 'a' := by simpa using (congrArg List.head? hs').symm
      subst this
      exact absurd hcc (by decide)
    | x :: y :: cur, hno, _, hs' =>
      injection hs' with _ h2
      injection h2 with h3 _
      exact (hno y (by simp)).2 h3.symm
  | lf => cases hl
  | crlf => cases hl
  | cr => cases hl

end Tinymist.Format
