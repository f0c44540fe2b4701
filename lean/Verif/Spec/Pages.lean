import Verif.Model.Pages
/-! What page selections are written like, and what they select. -/
namespace Tinymist.Pages

def isDigit (c : Char) : Bool := '0'.toNat ≤ c.toNat && c.toNat ≤ '9'.toNat

/-- The value of decimal digits. -/
def value (s : List Char) : Nat := s.foldl (fun a c => a * 10 + (c.toNat - '0'.toNat)) 0

/-- A page number: decimal digits, possibly with a plus sign, that denote a positive 64-bit number. -/
def Numeral (s : List Char) (n : Nat) : Prop :=
  ∃ ds, (s = ds ∨ s = '+' :: ds) ∧ ds ≠ [] ∧ (∀ c ∈ ds, isDigit c = true) ∧ value ds = n ∧ 0 < n ∧ n ≤ 18446744073709551615

/-- White space, by the Unicode property. -/
def Space (c : Char) : Prop :=
  c.toNat ∈ [0x9, 0xA, 0xB, 0xC, 0xD, 0x20, 0x85, 0xA0, 0x1680, 0x2000, 0x2001, 0x2002, 0x2003, 0x2004, 0x2005, 0x2006, 0x2007,
    0x2008, 0x2009, 0x200A, 0x2028, 0x2029, 0x202F, 0x205F, 0x3000]

def Blank (s : List Char) : Prop := ∀ c ∈ s, Space c

/-- `Written s p`: a user writes `s` for the selection `p`: `3`, `3-`, `-5` or `3-5`, with blanks anywhere around the
numbers. -/
inductive Written : List Char → Pages → Prop
  | single {a t b n} (ha : Blank a) (hb : Blank b) (h : Numeral t n) : Written (a ++ t ++ b) ⟨some n, some n⟩
  | starting {a t b c n} (ha : Blank a) (hb : Blank b) (hc : Blank c) (h : Numeral t n) :
      Written (a ++ t ++ b ++ '-' :: c) ⟨some n, none⟩
  | ending {a b t c n} (ha : Blank a) (hb : Blank b) (hc : Blank c) (h : Numeral t n) :
      Written (a ++ '-' :: (b ++ t ++ c)) ⟨none, some n⟩
  | range {a t b c u d n m} (ha : Blank a) (hb : Blank b) (hc : Blank c) (hd : Blank d) (h : Numeral t n)
      (h' : Numeral u m) (hle : n ≤ m) :
      Written (a ++ t ++ b ++ '-' :: (c ++ u ++ d)) ⟨some n, some m⟩

/-- The extension of a file name: what follows the last dot, if something stands before it. -/
def Extension (name e : List Char) : Prop := ∃ stem, stem ≠ [] ∧ name = stem ++ '.' :: e ∧ '.' ∉ e

/-- A selection covers page `i`. -/
def Pages.Selects (p : Pages) (i : Nat) : Prop := (∀ a, p.first = some a → a ≤ i) ∧ (∀ b, p.last = some b → i ≤ b)

/-- The pages of a document of `n` pages a task should export: those in one of the ranges of each of its page
transforms. -/
def Wanted (ts : List Transform) (n i : Nat) : Prop :=
  1 ≤ i ∧ i ≤ n ∧ ∀ t ∈ ts, ∀ ranges, t = .pages ranges → ∃ p ∈ ranges, p.Selects i

end Tinymist.Pages
