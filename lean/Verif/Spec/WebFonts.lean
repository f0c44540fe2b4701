import Verif.Model.WebFonts

/-!
# What the names of a font say
-/

namespace Tinymist.WebFonts

/-! ## Families -/

/-- Words for styles. -/
def styleWords : List String :=
  ["bd", "bk", "black", "blk", "bold", "cd", "cn", "compressed", "cond", "condensed", "demi", "exp", "expanded", "extb", "hairline", "heavy",
    "italic", "light", "lt", "md", "med", "medium", "narrow", "normal", "oblique", "regular", "slanted", "th", "thin"]

/-- Words before words for styles. -/
def modifierWords : List String := ["dem", "demi", "ex", "ext", "extra", "sem", "semi", "sm", "ultra", "x"]

/-- Characters between words. -/
def Between (c : Char) : Prop := c = ' ' ∨ c = '-' ∨ c = '_'

/-- The name of a font of New Computer Modern. -/
def ComputerModern (b : Text) : Prop := "NewCM".toList <+: b ∨ "NewComputerModern".toList <+: b

/-- One or more words for styles, without anything between them, in whatever case. For New Computer Modern `book` is one. -/
def Styles (family t : Text) : Prop :=
  ∃ l : List String, l ≠ [] ∧ (∀ w ∈ l, w ∈ styleWords ∨ (ComputerModern family ∧ w = "book")) ∧ t.map Char.toLower = l.flatMap String.toList

/-- A word before words for styles, in whatever case. -/
def Modifier (t : Text) : Prop := ∃ w ∈ modifierWords, t.map Char.toLower = w.toList

/-- A name that begins with no blank and no dot and ends with no blank. -/
def Neat (b : Text) : Prop :=
  (∃ c, b.head? = some c ∧ Pages.isWhitespace c = false ∧ c ≠ '.') ∧ ∃ c, b.getLast? = some c ∧ Pages.isWhitespace c = false

/-- The name ends with a word before words for styles, as a word of its own. -/
def EndsModified (b : Text) : Prop := ∃ a c m, b = a ++ c :: m ∧ Between c ∧ Modifier m

/-- Fonts of New Computer Modern, and what their families are called. -/
def modernNames : List (String × String) :=
  [("NewComputerModern", "New Computer Modern"), ("NewComputerModernMono", "New Computer Modern Mono"),
   ("NewComputerModernSans", "New Computer Modern Sans"), ("NewComputerModernMath", "New Computer Modern Math"),
   ("NewComputerModernUncial", "New Computer Modern Uncial"), ("NewCMUncial", "New Computer Modern Uncial")]

/-! ## Variants -/

/-- The text has the word in it. -/
def Says (s : Text) (w : String) : Prop := ∃ a b, s = a ++ w.toList ++ b

/-- How a weight may be written. -/
def weightNames : Weight → List String
  | .thin => ["thin"]
  | .extralight => ["extralight", "extra light", "extra-light"]
  | .light => ["light"]
  | .regular => ["regular"]
  | .medium => ["medium"]
  | .semibold => ["semibold", "semi bold", "semi-bold"]
  | .bold => ["bold"]
  | .extrabold => ["extrabold", "extra bold", "extra-bold"]
  | .black => ["black"]

/-- How a stretch may be written. -/
def stretchNames : Stretch → List String
  | .ultraCondensed => ["ultracondensed", "ultra_condensed", "ultra-condensed"]
  | .extraCondensed => ["extracondensed", "extra_condensed", "extra-condensed"]
  | .condensed => ["condensed"]
  | .semiCondensed => ["semicondensed", "semi_condensed", "semi-condensed"]
  | .normal => ["normal"]
  | .semiExpanded => ["semiexpanded", "semi_expanded", "semi-expanded"]
  | .expanded => ["expanded"]
  | .extraExpanded => ["extraexpanded", "extra_expanded", "extra-expanded"]
  | .ultraExpanded => ["ultraexpanded", "ultra_expanded", "ultra-expanded"]

/-- The text names a weight, in whatever case. -/
def NamesWeight (s : Text) (w : Weight) : Prop := ∃ n ∈ weightNames w, Says (s.map Char.toLower) n

/-- The text names a stretch, in whatever case. -/
def NamesStretch (s : Text) (x : Stretch) : Prop := ∃ n ∈ stretchNames x, Says (s.map Char.toLower) n

end Tinymist.WebFonts
