import Verif.Model.Groups
import Verif.Spec.Context

/-!
# What may be offered in code, equations, raw text and markup
-/

namespace Tinymist.Groups

open Mode (Kind)
open Pointer

/-- What fits a mode. -/
def Fits : Mode.Mode → Offer → Prop
  | .code, o => o = .names ∨ o = .code ∨ o = .function
  | .math, o => o = .names ∨ o = .math
  | .raw, o => o = .languages
  | .markup, o => o = .markup
  | .comment, _ => False
  | .string, _ => False

/-- The nearest raw text a node is in, by its offset. -/
def InRaw (p : Place) (off : Nat) : Prop :=
  (p.tree.kind = .raw ∧ p.offset = off) ∨
    p.tree.kind ≠ .raw ∧ ∃ inner f outer, p.up = inner ++ f :: outer ∧ (∀ g ∈ inner, g.kind ≠ .raw) ∧ f.kind = .raw ∧ off = Pointer.offset outer

/-- A text has, at an offset, three or more backticks and no more, and a word right behind them; both end as late as possible. -/
structure Fenced (idStart idContinue : Char → Bool) (text : List Char) (off start stop : Nat) : Prop where
  split : ∃ a ticks lang rest, text = a ++ ticks ++ lang ++ rest ∧ a.length = off ∧ 3 ≤ ticks.length ∧ (∀ c ∈ ticks, c = '`') ∧
    (lang = [] ∨ ∃ c cs, lang = c :: cs ∧ idStart c = true ∧ ∀ x ∈ cs, idContinue x = true) ∧
    (∀ c r, lang ++ rest = c :: r → c ≠ '`') ∧
    (lang = [] → ∀ c r, rest = c :: r → idStart c = false) ∧ (lang ≠ [] → ∀ c r, rest = c :: r → idContinue c = false) ∧
    start = (a ++ ticks).length ∧ stop = (a ++ ticks ++ lang).length

/-- The leaf before a node is of a kind. -/
def Before (p : Place) (k : Kind) : Prop := ∃ l, p.prevLeaf = some l ∧ l.tree.kind = k

/-- The leaf before a node is the sign of a binding or a function. -/
def BehindBinding (p : Place) : Prop :=
  ∃ l q, p.prevLeaf = some l ∧ (l.tree.kind = .eq ∨ l.tree.kind = .arrow) ∧ l.parent = some q ∧ (q.tree.kind = .letBinding ∨ q.tree.kind = .closure)

end Tinymist.Groups
