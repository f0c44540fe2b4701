import Verif.Model.Ty

/-!
# What is learned of types from their uses

Models `constrain`, `constrain_sig_inputs`, `weaken`, `weaken_constraint`, `check_containing` and `possible_ever_be` of
`crates/tinymist-query/src/analysis/tyck.rs`, with the types of the model of `ty/def.rs`.

Simplified: the built-in types, the values and the operators are numbers, and what they are is a parameter. The six dictionaries that
stand for a stroke, a margin and so on are a table. The sets of bounds are lists without an element twice.
-/

namespace Tinymist.Constrain

open Types

/-- What is known of the library: the dictionaries that may be written for built-in types (ty/builtin.rs 638-706), which built-in types
and values are types (tyck.rs 259-265), the number of `UnaryOp::TypeOf`, of `ElementOf` and `NotElementOf`, the type of a value
(`BuiltinTy::from_value`), and how deep the dictionaries are. -/
structure Lib where
  short : Nat → Option (List (Nat × Ty))
  isType : Leaf → Bool
  typeOf : Nat
  elementOf : Nat
  notElementOf : Nat
  lift : Nat → Ty
  depth : Nat

/-- `TypeVarBounds` with its `FlowVarKind` (ty/def.rs 1340-1400). -/
structure Bounds where
  weak : Bool
  lbs : List Ty
  ubs : List Ty

/-- The parts of `TypeChecker` that change here: `info.vars` and `call_cache` (tyck.rs 84-103). -/
structure State where
  vars : Nat → Option Bounds
  seen : List (SigTy × SigTy × List SigTy)

/-- `insert_mut` of a set. -/
def add (t : Ty) (l : List Ty) : List Ty := if t ∈ l then l else l ++ [t]

/-- A variable gets other bounds. -/
def State.set (s : State) (v : Nat) (b : Bounds) : State := { s with vars := fun w => if w = v then some b else s.vars w }

/-- `weaken_constraint` (tyck.rs 516-526). -/
def weakenConstraint (lib : Lib) (t : Ty) (weak : Bool) : Ty :=
  if weak = false then t
  else
    match t with
    | .leaf (.value n) => lib.lift n
    | t => t

/-- An upper bound of a variable (tyck.rs 283-293); nothing is the panic of `unwrap`. -/
def addUpper (v : Nat) (b : Ty) (s : State) : Option State :=
  match s.vars v with
  | none => none
  | some w => some (s.set v { w with ubs := add b w.ubs })

/-- A lower bound of a variable (tyck.rs 294-304). -/
def addLower (lib : Lib) (v : Nat) (b : Ty) (s : State) : Option State :=
  match s.vars v with
  | none => none
  | some w => some (s.set v { w with lbs := add (weakenConstraint lib b w.weak) w.lbs })

/-- A dictionary with the given fields. -/
def dictOf (d : List (Nat × Ty)) : Ty := .node (.dict (d.map (·.1))) (d.map (·.2))

/-- The dictionary that may be written for a built-in type. -/
def shortOf (lib : Lib) : Ty → Option (List (Nat × Ty))
  | .leaf (.builtin k) => lib.short k
  | _ => none

/-- `common_iface_fields` (ty/def.rs 487-502) of dictionaries. -/
def dictCommon (ns : List Nat) (ts : List Ty) (ms : List Nat) (us : List Ty) : List (Ty × Ty) :=
  (intersect (numbered ns) (numbered ms)).filterMap fun p =>
    match ts[p.1]?, us[p.2]? with
    | some l, some r => some (l, r)
    | _, _ => none

/-- The signature in a type: its inputs are followed by the body, if it has one. -/
def sigIn (s : Shape) (body : Bool) (ts : List Ty) : SigTy :=
  if body then ⟨ts.dropLast, ts.getLast?, s⟩ else ⟨ts, none, s⟩

/-- What an arm of the `match` of `constrain` does. -/
inductive Step where
  | nothing
  | upper (v : Nat) (b : Ty)
  | lower (v : Nat) (b : Ty)
  | each (ps : List (Ty × Ty))
  | call (s args : SigTy)

/-- `constrain` of two dictionaries (tyck.rs 267-269, 377-387). -/
def stepDict (l r : Ty) (ns : List Nat) (ts : List Ty) (ms : List Nat) (us : List Ty) : Step :=
  if l = r then .nothing else .each (dictCommon ns ts ms us)

/-- The arms for dictionaries, operators and functions (tyck.rs 377-430). Those for values do nothing. -/
def stepNode (lib : Lib) : Ty → Ty → Step
  | .node (.dict ns) ts, .node (.dict ms) us => .each (dictCommon ns ts ms us)
  | .node (.unary a) [x], .node (.unary b) [y] => if a = b then .each [(x, y)] else .nothing
  | .node (.unary a) [x], .leaf k => if a = lib.typeOf ∧ lib.isType k = true then .each [(x, .leaf k)] else .nothing
  | .leaf k, .node (.unary b) [y] => if b = lib.typeOf ∧ lib.isType k = true then .each [(.leaf k, y)] else .nothing
  | .node (.sig .func s b) ts, .node (.sig .func s' b') ts' => .call (sigIn s b ts) (sigIn s' b' ts')
  | _, _ => .nothing

/-- The arms for what may be written as a dictionary (tyck.rs 315-376), in which the right one comes first, and those behind them. That
`constrain` is called again with two dictionaries is written out. -/
def stepShort (lib : Lib) (l r : Ty) : Step :=
  match shortOf lib r with
  | some d =>
    match l with
    | .node (.dict ns) ts => stepDict l (dictOf d) ns ts (d.map (·.1)) (d.map (·.2))
    | _ => .nothing
  | none =>
    match shortOf lib l with
    | some d =>
      match r with
      | .node (.dict ms) us => stepDict (dictOf d) r (d.map (·.1)) (d.map (·.2)) ms us
      | _ => .nothing
    | none => stepNode lib l r

/-- Which arm is taken (tyck.rs 267-430). -/
def step (lib : Lib) (l r : Ty) : Step :=
  if l = r then .nothing
  else
    match l, r with
    | .var _, .var _ => .nothing
    | .var v, r => .upper v r
    | l, .var v => .lower v l
    | .node .union ts, r => .each (ts.map fun t => (t, r))
    | l, .node .union ts => .each (ts.map fun t => (l, t))
    | l, r => stepShort lib l r

/-- `constrain` (tyck.rs 245-430) with `constrain_sig_inputs` (tyck.rs 228-243), to a depth. Nothing is a panic, or that the depth is
not enough, which `constrain` is shown not to run into. -/
def go (lib : Lib) : Nat → Ty → Ty → State → Option State
  | 0, _, _, _ => none
  | n + 1, l, r, s =>
    match step lib l r with
    | .nothing => some s
    | .upper v b => addUpper v b s
    | .lower v b => addLower lib v b s
    | .each ps => ps.foldlM (fun s p => go lib n p.1 p.2 s) s
    | .call sig args =>
      if (sig, args, []) ∈ s.seen then some s
      else (sig.matches args []).foldlM (fun s p => go lib n p.2 p.1 s) { s with seen := (sig, args, []) :: s.seen }

mutual
/-- How deep a type is. A built-in type for which a dictionary may be written is as deep as these are. -/
def deep (lib : Lib) : Ty → Nat
  | .leaf (.builtin k) => if (lib.short k).isSome then lib.depth else 0
  | .leaf _ => 0
  | .var _ => 0
  | .node _ ts => deepList lib ts + 1
def deepList (lib : Lib) : List Ty → Nat
  | [] => 0
  | t :: ts => max (deep lib t) (deepList lib ts)
end

/-- `constrain` (tyck.rs 245-430). -/
def constrain (lib : Lib) (l r : Ty) (s : State) : Option State := go lib (deep lib l + deep lib r + 1) l r s

/-- `constrain_sig_inputs` (tyck.rs 228-243). -/
def constrainInputs (lib : Lib) (sig args : SigTy) (withs : List SigTy) (s : State) : Option State :=
  if (sig, args, withs) ∈ s.seen then some s
  else (sig.matches args withs).foldlM (fun s p => constrain lib p.2 p.1 s) { s with seen := (sig, args, withs) :: s.seen }

/-- `check_containing` (tyck.rs 442-455). -/
def checkContaining (lib : Lib) (container elem : Ty) (isIn : Bool) (s : State) : Option State :=
  let rhs :=
    if isIn then
      match container with
      | .node .tuple ts => .node .union ts
      | c => .node (.unary lib.elementOf) [c]
    else .node (.unary lib.notElementOf) [container]
  constrain lib elem rhs s

/-- `possible_ever_be` (tyck.rs 457-465). -/
def possibleEverBe (lib : Lib) (l r : Ty) (s : State) : Option State :=
  match r with
  | .leaf (.builtin _) | .leaf (.value _) | .leaf (.bool _) => constrain lib r l s
  | _ => some s

/-- `TypeVarBounds::weaken` (ty/def.rs 1381-1388). -/
def weakenVar (v : Nat) (s : State) : Option State :=
  match s.vars v with
  | none => none
  | some w => some (s.set v { w with weak := true })

/-- The last type in a signature is its body, which is left out. -/
def hasBody : Head → Bool
  | .sig _ _ b => b
  | .withArgs _ b => b
  | _ => false

mutual
/-- `weaken` (tyck.rs 467-514). -/
def weaken : Ty → State → Option State
  | .leaf _, s => some s
  | .var v, s => weakenVar v s
  | .node h ts, s => weakenList (hasBody h) ts s
def weakenList (skipLast : Bool) : List Ty → State → Option State
  | [], s => some s
  | [t], s => if skipLast then some s else weaken t s
  | t :: u :: ts, s =>
    match weaken t s with
    | none => none
    | some s => weakenList skipLast (u :: ts) s
end

end Tinymist.Constrain
