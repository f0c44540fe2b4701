/-!
# The values shown for an expression

Models `expr_tooltip` of `crates/tinymist-analysis/src/upstream/tooltip.rs`.

Values are of any type `V`. `same` is the equality of typst values, which does not tell `1` from `1.0`, `repr` is
`truncated_repr`, and `docs` and `length` are what `Value::docs` and `length_tooltip` give. `Sink::MAX_VALUES`, the most
values that are recorded, is the parameter `max`.
-/

namespace Tinymist.Sampled

/-- What is known of a value. -/
structure Values (V : Type) where
  same : V → V → Bool
  repr : V → String
  isFunc : V → Bool
  docs : V → Option String
  length : V → Option String

/-- `Tooltip` (tooltip.rs:37-43). The pieces of `Code` are joined by `repr::pretty_comma_list`. -/
inductive Tooltip where
  | text (t : String)
  | length (t : String)
  | code (pieces : List String)
  deriving DecidableEq, Repr

/-- The variables of the loop in `expr_tooltip` (tooltip.rs:74-78). -/
structure State (V : Type) where
  last : Option (V × Nat)
  pieces : List String
  uniqueFunc : Option V
  unique : Bool

/-- `write!(pieces.last_mut().unwrap(), " (x{count})")`. -/
def addCount (pieces : List String) (count : Nat) : List String :=
  match pieces.getLast? with
  | none => pieces
  | some p => pieces.dropLast ++ [p ++ " (x" ++ toString count ++ ")"]

/-- `pieces` with the count of the last one, when it is more than one (tooltip.rs:84-86 and 119-123). -/
def closeRun {V : Type} (last : Option (V × Nat)) (pieces : List String) : List String :=
  match last with
  | some (_, count) => if 1 < count then addCount pieces count else pieces
  | none => pieces

/-- The part of the loop for a value that is not the same as the one before (tooltip.rs:89-106). -/
def newValue {V : Type} (k : Values V) (s : State V) (v : V) : State V :=
  let pieces := closeRun s.last s.pieces ++ [k.repr v]
  if k.isFunc v then
    match s.uniqueFunc with
    | some f => ⟨some (v, 1), pieces, some f, if s.unique then k.same f v else s.unique⟩
    | none => ⟨some (v, 1), pieces, some v, s.unique⟩
  else ⟨some (v, 1), pieces, s.uniqueFunc, false⟩

/-- The body of the loop (tooltip.rs:79-107). -/
def step {V : Type} (k : Values V) (s : State V) (v : V) : State V :=
  match s.last with
  | some (prev, count) => if k.same prev v then { s with last := some (prev, count + 1) } else newValue k s v
  | none => newValue k s v

/-- The loop and what is after it (tooltip.rs:74-132). -/
def sampled {V : Type} (k : Values V) (max : Nat) (values : List V) : Option Tooltip :=
  let s := (values.take (max - 1)).foldl (step k) ⟨none, [], none, true⟩
  if s.uniqueFunc.isSome && s.unique then none
  else
    let pieces := closeRun s.last s.pieces
    let pieces := if (values.drop (max - 1)).isEmpty then pieces else pieces ++ ["..."]
    if pieces.isEmpty then none else some (.code pieces)

/-- `expr_tooltip` (tooltip.rs:46-128) from the line that analyzes the expression on. `literal` is `expr.is_literal()`. -/
def exprTooltip {V : Type} (k : Values V) (max : Nat) (literal : Bool) (values : List V) : Option Tooltip :=
  let rest := if literal then none else sampled k max values
  match values with
  | [v] =>
    match k.docs v with
    | some d => some (.text d)
    | none =>
      match k.length v with
      | some t => some (.length t)
      | none => rest
  | _ => rest

end Tinymist.Sampled
