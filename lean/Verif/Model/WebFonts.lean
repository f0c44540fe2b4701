import Verif.Model.Pages

/-!
# Fonts of a browser

Models `crates/tinymist-world/src/font/info.rs` and the guesses of `crates/tinymist-world/src/font/web/mod.rs`: the family, the variant
and the flags of a font of which only names are known.

Left out: the objects of the browser a font comes in, its data, and what it covers, which is everything.
-/

namespace Tinymist.WebFonts

abbrev Text := List Char

/-! ## Families -/

/-- `SEPARATORS` (info.rs 5). -/
def separators : List Char := [' ', '-', '_']

/-- `MODIFIERS` (info.rs 8-10). -/
def modifiers : List String := ["extra", "ext", "ex", "x", "semi", "sem", "sm", "demi", "dem", "ultra"]

/-- `SUFFIXES` (info.rs 13-19). -/
def suffixes : List String :=
  ["normal", "italic", "oblique", "slanted", "thin", "th", "hairline", "light", "lt", "regular", "medium", "med", "md", "bold", "bd",
    "demi", "extb", "black", "blk", "bk", "heavy", "narrow", "condensed", "cond", "cn", "cd", "compressed", "expanded", "exp"]

/-- `str::strip_suffix` with a text. -/
def stripSuffix (t w : Text) : Option Text := if w.isSuffixOf t then some (t.take (t.length - w.length)) else none

/-- `words.iter().find_map(|s| t.strip_suffix(s))` (info.rs 41, 59). -/
def stripWord (words : List String) (t : Text) : Option Text := words.findSome? fun w => stripSuffix t w.toList

/-- The suffixes that are taken off one after another (info.rs 39-44). A word without characters would never end; here it does. -/
def stripAll (words : List String) (t : Text) : Text :=
  match stripWord words t with
  | some s => if s.length < t.length then stripAll words s else t
  | none => t
termination_by t.length

/-- `strip_suffix(SEPARATORS)` (info.rs 51, 60). -/
def stripSep (t : Text) : Option Text :=
  match t.getLast? with
  | some c => if separators.contains c then some t.dropLast else none
  | none => none

/-- The loop of info.rs 33-64; what is left of the name is `family[..len]` with the same length. -/
def trimLoop (words : List String) (trimmed : Text) : Text :=
  if (stripWord words trimmed).isSome then
    let t := stripAll words trimmed
    let (trimmed1, t1) := match stripSep t with
      | some s => (s, s)
      | none => (trimmed, t)
    let trimmed2 := match stripWord modifiers t1 with
      | some m => (match stripSep m with
        | some s => s
        | none => trimmed1)
      | none => trimmed1
    if trimmed2.length < trimmed.length then trimLoop words trimmed2 else trimmed
  else trimmed
termination_by trimmed.length

/-- `trim_end_matches("10")` (info.rs 70), on the text from its end. -/
def trimTens : Text → Text
  | '0' :: '1' :: r => trimTens r
  | r => r

/-- The last part of info.rs 73-81. -/
def fixName (family : Text) : Text :=
  if family = "Noto Sans Symbols2".toList then "Noto Sans Symbols 2".toList
  else if family = "NewComputerModern".toList then "New Computer Modern".toList
  else if family = "NewComputerModernMono".toList then "New Computer Modern Mono".toList
  else if family = "NewComputerModernSans".toList then "New Computer Modern Sans".toList
  else if family = "NewComputerModernMath".toList then "New Computer Modern Math".toList
  else if family = "NewCMUncial".toList ∨ family = "NewComputerModernUncial".toList then "New Computer Modern Uncial".toList
  else family

/-- Whether the name is one of New Computer Modern (info.rs 22). -/
def isNewCM (family : Text) : Bool := "NewCM".toList.isPrefixOf family || "NewComputerModern".toList.isPrefixOf family

/-- `typst_typographic_family` (info.rs 3-83). -/
def typographicFamily (family : Text) : Text :=
  let newcm := isNewCM family
  let words := if newcm then suffixes ++ ["book"] else suffixes
  let family := (Pages.trim family).dropWhile (· = '.')
  let len := (trimLoop words (family.map Char.toLower)).length
  let family := family.take len
  fixName (if newcm then (trimTens family.reverse).reverse else family)

/-- `font_family_web_to_typst` (web/mod.rs 20-34); `none` is the error. -/
def familyOf (family full : Text) : Option Text :=
  let family := if "Noto".toList.isPrefixOf family || isNewCM family then full else family
  if family = [] then none else some (typographicFamily family)

/-! ## Variants -/

/-- `str::contains`. -/
def has : Text → Text → Bool
  | [], w => w.isEmpty
  | c :: s, w => w.isPrefixOf (c :: s) || has s w

inductive Style where
  | normal | italic | oblique
  deriving DecidableEq, Repr

inductive Weight where
  | thin | extralight | light | regular | medium | semibold | bold | extrabold | black
  deriving DecidableEq, Repr

inductive Stretch where
  | ultraCondensed | extraCondensed | condensed | semiCondensed | normal | semiExpanded | expanded | extraExpanded | ultraExpanded
  deriving DecidableEq, Repr

/-- The words for weights in the order they are looked for, with what they mean (web/mod.rs 80-115). -/
def weightWords : List (String × Weight) :=
  [("thin", .thin), ("extralight", .extralight), ("extra light", .extralight), ("extra-light", .extralight), ("light", .light),
   ("regular", .regular), ("medium", .medium), ("semibold", .semibold), ("semi bold", .semibold), ("semi-bold", .semibold),
   ("bold", .bold), ("extrabold", .extrabold), ("extra bold", .extrabold), ("extra-bold", .extrabold), ("black", .black)]

/-- The words for stretches in the order they are looked for, with what they mean (web/mod.rs 135-183). -/
def stretchWords : List (String × Stretch) :=
  [("ultracondensed", .ultraCondensed), ("ultra_condensed", .ultraCondensed), ("ultra-condensed", .ultraCondensed),
   ("extracondensed", .extraCondensed), ("extra_condensed", .extraCondensed), ("extra-condensed", .extraCondensed),
   ("condensed", .condensed),
   ("semicondensed", .semiCondensed), ("semi_condensed", .semiCondensed), ("semi-condensed", .semiCondensed),
   ("normal", .normal),
   ("semiexpanded", .semiExpanded), ("semi_expanded", .semiExpanded), ("semi-expanded", .semiExpanded),
   ("expanded", .expanded),
   ("extraexpanded", .extraExpanded), ("extra_expanded", .extraExpanded), ("extra-expanded", .extraExpanded),
   ("ultraexpanded", .ultraExpanded), ("ultra_expanded", .ultraExpanded), ("ultra-expanded", .ultraExpanded)]

/-- The search for the weight (web/mod.rs 77-129): in the style the first word ends it, in the other names each later word replaces
the one before. -/
def weightLoop (style postscript full : Text) (secondary : Option Weight) : List (String × Weight) → Weight
  | [] => secondary.getD .regular
  | (w, g) :: rest =>
    if has style w.toList then g
    else if has postscript w.toList || has full w.toList then weightLoop style postscript full (some g) rest
    else weightLoop style postscript full secondary rest

/-- The search for the stretch (web/mod.rs 132-195). What is found in other names than the style is not used. -/
def stretchLoop (style : Text) : List (String × Stretch) → Stretch
  | [] => .normal
  | (w, g) :: rest => if has style w.toList then g else stretchLoop style rest

/-- The names of a font as the browser has them (web/mod.rs 36-41). -/
structure Names where
  family : Text
  full : Text
  postscript : Text
  style : Text

/-- What is guessed: `FontInfo` of the compiler. -/
structure Info where
  family : Text
  style : Style
  weight : Weight
  stretch : Stretch
  monospace : Bool
  serif : Bool
  deriving DecidableEq, Repr

/-- `infer_info_from_web_font` (web/mod.rs 43-225). -/
def inferInfo (n : Names) : Option Info :=
  match familyOf n.family n.full with
  | none => none
  | some family =>
    let full := n.full.map Char.toLower
    let postscript := n.postscript.map Char.toLower
    let style := n.style.map Char.toLower
    let scopes := [style, postscript, full]
    let italic := has full "italic".toList
    let oblique := has full "oblique".toList || has full "slanted".toList
    some {
      family := family
      style := match italic, oblique with
        | false, false => .normal
        | true, _ => .italic
        | _, true => .oblique
      weight := weightLoop style postscript full none weightWords
      stretch := stretchLoop style stretchWords
      monospace := scopes.any fun s => has s "mono".toList
      serif := scopes.any fun s => !has s "mono".toList && has s "serif".toList }

end Tinymist.WebFonts
