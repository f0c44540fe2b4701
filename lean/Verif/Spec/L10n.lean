import Verif.Model.L10n
import Verif.Spec.Pages
/-!
# Localisation: what is meant
-/
namespace Tinymist.L10n
open Pages (Blank)

/-- The message with its placeholders replaced: `{name}` is the argument's text if there is such an argument, everything else
stays. -/
inductive Filled (args : List (Str × Str)) : Str → Str → Prop
  | nil : Filled args [] []
  | text {c : Char} {rest out : Str} : c ≠ '{' → Filled args rest out → Filled args (c :: rest) (c :: out)
  | hole {name v rest out : Str} : '}' ∉ name → args.lookup name = some v → Filled args rest out →
      Filled args ('{' :: name ++ '}' :: rest) (v ++ out)
  | unknown {name rest out : Str} : '}' ∉ name → args.lookup name = none → Filled args rest out →
      Filled args ('{' :: name ++ '}' :: rest) ('{' :: name ++ '}' :: out)
  | unclosed {name : Str} : '}' ∉ name → Filled args ('{' :: name) ('{' :: name)

/-- A locale speaks a language if it is the language, or the language with a region. -/
def Speaks (locale lang : Str) : Prop := locale = lang ∨ ∃ region, locale = lang ++ '-' :: region

/-- The inside of a string literal: backslashes come with the character they escape, and a quote is escaped. -/
inductive Inside : Str → Prop
  | nil : Inside []
  | char {c : Char} {s : Str} : c ≠ '\\' → c ≠ '"' → Inside s → Inside (c :: s)
  | escape {c : Char} {s : Str} : Inside s → Inside ('\\' :: c :: s)

/-- A text that begins with a call of one of the two macros with a key and a message. -/
def IsCall (s key message : Str) : Prop :=
  ∃ mac a b c d rest, (mac = "tinymist_l10n::t!".toList ∨ mac = "tinymist_l10n::bail!".toList) ∧
    Blank a ∧ Blank b ∧ Blank c ∧ Blank d ∧ Inside key ∧ Inside message ∧
    s = mac ++ a ++ '(' :: b ++ '"' :: key ++ '"' :: c ++ ',' :: d ++ '"' :: message ++ '"' :: rest

/-- The translation of a key to a language in a map by key. -/
def translation (m : Map2) (key lang : Str) : Option Str := (m.lookup key).bind fun d => d.lookup lang

end Tinymist.L10n
