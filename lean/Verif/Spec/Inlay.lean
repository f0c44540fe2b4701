import Verif.Model.Inlay
/-! # Inlay hints: what is meant -/
namespace Tinymist.Inlay

mutual
/-- The length of a node: that of all the text in it. -/
def width : Node → Nat
  | .leaf n => n
  | .inner _ cs => widths cs
def widths : List Node → Nat
  | [] => 0
  | c :: cs => width c + widths cs
end

mutual
/-- `CallAt off n start len c`: in the node `n` at `off` there is the call `c`, from `start`, of length `len`. -/
inductive CallAt : Nat → Node → Nat → Nat → Call → Prop
  | here {off c cs} : CallAt off (.inner (some c) cs) off (widths cs) c
  | inside {off c cs s l d} : CallsAt off cs s l d → CallAt off (.inner c cs) s l d
/-- The same for nodes that follow one another. -/
inductive CallsAt : Nat → List Node → Nat → Nat → Call → Prop
  | head {off n ns s l d} : CallAt off n s l d → CallsAt off (n :: ns) s l d
  | tail {off n ns s l d} : CallsAt (off + width n) ns s l d → CallsAt off (n :: ns) s l d
end

/-- An argument given by position, not as a content block. -/
def Positional (a : Arg) : Prop := ∃ i, a.info = some i ∧ i.kind = .positional ∧ i.content = false

instance (a : Arg) : Decidable (Positional a) :=
  match h : a.info with
  | none => .isFalse (by rintro ⟨i, hi, _⟩; rw [h] at hi; cases hi)
  | some i =>
    if hk : i.kind = .positional ∧ i.content = false then .isTrue ⟨i, h, hk⟩
    else .isFalse (by rintro ⟨j, hj, hk'⟩; rw [h] at hj; cases hj; exact hk hk')

/-- An argument for a variadic parameter. -/
def Rest (a : Arg) : Prop := ∃ i, a.info = some i ∧ i.kind = .rest

/-- Hints are useful in a call: it has two positional arguments, or one and variadic ones. -/
def Useful (args : List Arg) : Prop :=
  2 ≤ (args.filter (fun a => decide (Positional a))).length ∨
    (1 ≤ (args.filter (fun a => decide (Positional a))).length ∧ ∃ a ∈ args, Rest a)

/-- The label of an argument with arguments before it. -/
def Labelled (shape : Bool) (before : List Arg) (a : Arg) (label : Text) : Prop :=
  ∃ i, a.info = some i ∧ i.name ≠ [] ∧
    ((i.kind = .positional ∧ i.content = false ∧ shape = false ∧ label = i.name ++ ":".toList) ∨
      (i.kind = .rest ∧ (∀ b ∈ before, ∀ j, b.info = some j → j.kind = .rest → j.name = []) ∧ label = "..".toList ++ i.name ++ ":".toList))

end Tinymist.Inlay
