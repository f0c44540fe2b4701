import Verif.Model.Context
import Verif.Spec.Pointer

/-!
# The argument a place is in, and the rule, import or parameters around it
-/

namespace Tinymist.Context

open Mode (Kind)
open Pointer

/-- The positional ones of some arguments: neither named ones, nor spread ones, nor what is in between. -/
def positionals (l : List Tree) : Nat := (l.filter fun t => isExpr t.kind).length

/-- Those that are spread. -/
def spreads (l : List Tree) : List Tree := l.filter fun t => t.kind == .spread

/-- The arguments of a call or, if so said, of a set rule, with what is called. -/
inductive ArgsOf : Place → Place → Bool → Prop where
  | mk {k : Kind} {c : Tree} {items pre mid post : List Tree} {up : List Frame} {isSet : Bool} :
      (k = .funcCall ∧ isSet = false) ∨ (k = .setRule ∧ isSet = true) → isExpr c.kind = true → (∀ x ∈ pre, isExpr x.kind = false) →
      (∀ x ∈ post, x.kind ≠ .args) →
      ArgsOf ⟨c, ⟨k, pre, mid ++ .inner .args items :: post⟩ :: up⟩ ⟨.inner .args items, ⟨k, pre ++ c :: mid, post⟩ :: up⟩ isSet

/-- A node is a child of another one, between these children. -/
inductive Child : Place → List Tree → Place → List Tree → Prop where
  | mk {k : Kind} {l r : List Tree} {t : Tree} {up : List Frame} : Child ⟨.inner k (l ++ t :: r), up⟩ l ⟨t, ⟨k, l, r⟩ :: up⟩ r

/-- A token of one of these kinds. -/
def Token (p : Place) (ks : List Kind) : Prop := ∃ k t, p.tree = .leaf k t ∧ t ≠ [] ∧ k ∈ ks

/-- The tokens that are a value by themselves. -/
def values : List Kind := [.int, .float, .numeric, .bool, .noneKw, .autoKw, .str, .ident]

/-- A named argument: its name, what is between it and its value, the value, and what is behind it. -/
def Named (named : Place) (name : Place) (value : Place) : Prop :=
  ∃ l b m r, Child named l name (m ++ value.tree :: r) ∧ Child named b value r ∧ named.tree.kind = .named ∧ name.tree.kind = .ident ∧
    (∀ x ∈ l, x.kind ≠ .ident) ∧ (∀ x ∈ r, isExpr x.kind = false ∧ x.kind ≠ .colon)

/-! ## What is around -/

/-- The nodes that say what is in them. -/
def deciding : List Kind :=
  [.codeBlock, .contentBlock, .equation, .closure, .importItemPath, .importItems, .renamedImportItem, .moduleImport, .named, .params,
    .setRule, .showRule]

/-- The nearest node around that says what is in it. -/
def Nearest (p : Place) (inner : List Frame) (f : Frame) (outer : List Frame) : Prop :=
  p.up = inner ++ f :: outer ∧ (∀ g ∈ inner, g.kind ∉ deciding) ∧ f.kind ∈ deciding

/-- The place is behind the first colon of a node, or is the colon; `t` is the child it is in. -/
def PastColon (f : Frame) (t : Tree) : Prop := (∃ c ∈ f.left, c.kind = .colon) ∨ t.kind = .colon

/-- There is a colon, and the place is before it. -/
def BeforeColon (f : Frame) (t : Tree) : Prop := ¬ PastColon f t ∧ ∃ c ∈ f.right, c.kind = .colon

/-- The child is the condition of a set rule: the first expression behind `if`. -/
def Condition (f : Frame) (t : Tree) : Prop :=
  isExpr t.kind = true ∧ ∃ a i b, f.left = a ++ i :: b ∧ i.kind = .ifKw ∧ (∀ x ∈ a, x.kind ≠ .ifKw) ∧ ∀ x ∈ b, isExpr x.kind = false

/-- What the nodes around a place say. -/
inductive Says (p : Place) : Surrounding → Prop where
  | string : p.tree.kind = .str → Says p .stringContent
  | block {inner f outer} : p.tree.kind ≠ .str → Nearest p inner f outer → f.kind ∈ [Kind.codeBlock, .contentBlock, .equation, .closure] →
      Says p .regular
  | items {inner f outer} : p.tree.kind ≠ .str → Nearest p inner f outer →
      f.kind ∈ [Kind.importItemPath, .importItems, .renamedImportItem] → Says p .importList
  | importBehind {inner f outer} : p.tree.kind ≠ .str → Nearest p inner f outer → f.kind = .moduleImport → PastColon f (around p.tree inner) →
      Says p .importList
  | importBefore {inner f outer} : p.tree.kind ≠ .str → Nearest p inner f outer → f.kind = .moduleImport →
      ¬ PastColon f (around p.tree inner) → Says p .regular
  | nameOfParam {inner f outer} : p.tree.kind ≠ .str → Nearest p inner f outer → f.kind = .named → BeforeColon f (around p.tree inner) →
      (∃ g ∈ outer, g.kind = .params) → Says p .paramList
  | named {inner f outer} : p.tree.kind ≠ .str → Nearest p inner f outer → f.kind = .named →
      ¬ (BeforeColon f (around p.tree inner) ∧ ∃ g ∈ outer, g.kind = .params) → Says p .regular
  | params {inner f outer} : p.tree.kind ≠ .str → Nearest p inner f outer → f.kind = .params → Says p .paramList
  | setRule {inner f outer} : p.tree.kind ≠ .str → Nearest p inner f outer → f.kind = .setRule → (∀ g ∈ inner, g.kind ≠ .args) →
      ¬ Condition f (around p.tree inner) → Says p .setRule
  | inSetRule {inner f outer} : p.tree.kind ≠ .str → Nearest p inner f outer → f.kind = .setRule →
      (∃ g ∈ inner, g.kind = .args) ∨ Condition f (around p.tree inner) → Says p .regular
  | selector {inner f outer} : p.tree.kind ≠ .str → Nearest p inner f outer → f.kind = .showRule → (∀ g ∈ inner, g.kind ≠ .args) →
      ¬ PastColon f (around p.tree inner) → Says p .selector
  | transform {inner f outer} : p.tree.kind ≠ .str → Nearest p inner f outer → f.kind = .showRule → (∀ g ∈ inner, g.kind ≠ .args) →
      PastColon f (around p.tree inner) → Says p .showTransform
  | inShowRule {inner f outer} : p.tree.kind ≠ .str → Nearest p inner f outer → f.kind = .showRule → (∃ g ∈ inner, g.kind = .args) →
      Says p .regular

/-! ## What is expected -/

/-- The parameter for an argument: the one at its place, behind those that were given before, or else that for the rest. -/
def ForPlace (sig : Sig) (i : Nat) (p : Param) : Prop := sig.pos[i]? = some p ∨ (sig.pos.length ≤ i ∧ sig.rest = some p)

end Tinymist.Context
