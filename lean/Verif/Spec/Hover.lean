import Verif.Model.Hover

/-!
# What hovering should show
-/

namespace Tinymist.Hover.Spec

/-- How far apart two cursors are. -/
def dist (a b : Nat) : Nat := (a - b) + (b - a)

/-- The cursors that may be previewed: the one asked for, and those around it in the text, at most ninety-nine bytes
away. -/
def Near (len cursor c : Nat) : Prop := c = cursor ∨ (dist c cursor < 100 ∧ (c < len ∨ c < cursor))

/-- The closest cursor with a position; of two that are equally close, the one behind. -/
def Closest {P : Type} (jump : Nat → Option P) (len cursor c : Nat) : Prop :=
  Near len cursor c ∧ jump c ≠ none ∧
    ∀ c', Near len cursor c' → jump c' ≠ none → dist c cursor < dist c' cursor ∨ (dist c cursor = dist c' cursor ∧ c' ≤ c)

/-- Letters and digits. -/
def Plain (c : Char) : Prop := ('0' ≤ c ∧ c ≤ '9') ∨ ('A' ≤ c ∧ c ≤ 'Z') ∨ ('a' ≤ c ∧ c ≤ 'z')

/-- The value of a digit in base sixteen. -/
inductive Digit : Char → Nat → Prop where
  | digit {c} : '0' ≤ c → c ≤ '9' → Digit c (c.toNat - '0'.toNat)
  | upper {c} : 'A' ≤ c → c ≤ 'F' → Digit c (c.toNat - 'A'.toNat + 10)
  | lower {c} : 'a' ≤ c → c ≤ 'f' → Digit c (c.toNat - 'a'.toNat + 10)

/-- The bytes that a text with percent escapes stands for. -/
inductive Unescapes : List Char → List Nat → Prop where
  | nil : Unescapes [] []
  | plain {c cs bs} : c ≠ '%' → c.toNat < 128 → Unescapes cs bs → Unescapes (c :: cs) (c.toNat :: bs)
  | escape {h l a b cs bs} : Digit h a → Digit l b → Unescapes cs bs → Unescapes ('%' :: h :: l :: cs) ((16 * a + b) :: bs)

/-- The characters that stand between the quotes of a string in JSON (RFC 8259, section 7; escapes of surrogates are left
out). -/
inductive InQuotes : List Char → List Char → Prop where
  | nil : InQuotes [] []
  | plain {c cs s} : 32 ≤ c.toNat → c ≠ '"' → c ≠ '\\' → InQuotes cs s → InQuotes (c :: cs) (c :: s)
  | quote {cs s} : InQuotes cs s → InQuotes ('\\' :: '"' :: cs) ('"' :: s)
  | backslash {cs s} : InQuotes cs s → InQuotes ('\\' :: '\\' :: cs) ('\\' :: s)
  | slash {cs s} : InQuotes cs s → InQuotes ('\\' :: '/' :: cs) ('/' :: s)
  | backspace {cs s} : InQuotes cs s → InQuotes ('\\' :: 'b' :: cs) (Char.ofNat 8 :: s)
  | formFeed {cs s} : InQuotes cs s → InQuotes ('\\' :: 'f' :: cs) (Char.ofNat 12 :: s)
  | newline {cs s} : InQuotes cs s → InQuotes ('\\' :: 'n' :: cs) ('\n' :: s)
  | carriage {cs s} : InQuotes cs s → InQuotes ('\\' :: 'r' :: cs) ('\r' :: s)
  | tab {cs s} : InQuotes cs s → InQuotes ('\\' :: 't' :: cs) ('\t' :: s)
  | unicode {h1 h2 h3 h4 a b c d cs s} (x : Char) : Digit h1 a → Digit h2 b → Digit h3 c → Digit h4 d →
      x.toNat = 4096 * a + 256 * b + 16 * c + d → InQuotes cs s →
      InQuotes ('\\' :: 'u' :: h1 :: h2 :: h3 :: h4 :: cs) (x :: s)

/-- A list in JSON with one string. -/
def OneString (text s : List Char) : Prop := ∃ cs, text = '[' :: '"' :: cs ++ ['"', ']'] ∧ InQuotes cs s

end Tinymist.Hover.Spec
