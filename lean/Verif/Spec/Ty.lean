import Verif.Model.Ty

/-!
# What types should say
-/

namespace Tinymist.Types.Spec

mutual
/-- Every variable replaced by what it stands for. -/
def subst (b : Nat → Option Ty) : Ty → Ty
  | .leaf l => .leaf l
  | .var d => (b d).getD (.var d)
  | .node h ts => .node h (substList b ts)
def substList (b : Nat → Option Ty) : List Ty → List Ty
  | [] => []
  | t :: ts => subst b t :: substList b ts
end

/-- A variable is in a type. -/
inductive Occurs (d : Nat) : Ty → Prop where
  | var : Occurs d (.var d)
  | node (h : Head) (ts : List Ty) (t : Ty) : t ∈ ts → Occurs d t → Occurs d (.node h ts)

/-- A variable is in the bounds of a type. -/
inductive Inside (d : Nat) : Ty → Prop where
  | bounds (n : Nat) (ts : List Ty) (t : Ty) : t ∈ ts → Occurs d t → Inside d (.node (.bounds n) ts)
  | node (h : Head) (ts : List Ty) (t : Ty) : t ∈ ts → Inside d t → Inside d (.node h ts)

/-- The variables of positional parameters. -/
def positional (ps : List Param) : List Nat := ps.filterMap fun | .pos d => some d | _ => none

/-- All variables. -/
def variables (ps : List Param) : List Nat := ps.map fun | .pos d => d | .named _ d _ => d | .spread d => d

/-- The names of parameters. -/
def names (ps : List Param) : List Nat := ps.filterMap fun | .named n _ _ => some n | _ => none

/-- The positional arguments. -/
def given (args : List Arg) : List Ty := args.filterMap fun | .pos t => some t | _ => none

/-- The names of arguments. -/
def argNames (args : List Arg) : List Nat := args.filterMap fun | .named n _ => some n | _ => none

/-- The positional parameters in front of the sink. -/
def front (ps : List Param) : List Nat := positional (ps.takeWhile fun | .spread _ => false | _ => true)

/-- The positional parameters behind the sink. -/
def back (ps : List Param) : List Nat := positional (ps.dropWhile fun | .spread _ => false | _ => true)

/-- The parameter with variable `d` gets `t`. All arguments, those given before first, are `args`. The sink gets the rest, which is no
type of an argument. -/
inductive Passed (ps : List Param) (args : List Arg) : Nat → Ty → Prop where
  | front (i d : Nat) (t : Ty) : (front ps)[i]? = some d → (given args)[i]? = some t → Passed ps args d t
  | back (i d : Nat) (t : Ty) : (back ps).reverse[i]? = some d → (given args).reverse[i]? = some t → Passed ps args d t
  | named (n d : Nat) (default t : Ty) (before after : List Arg) : Param.named n d default ∈ ps → args = before ++ .named n t :: after →
      (∀ t', Arg.named n t' ∉ after) → Passed ps args d t
  | default (n d : Nat) (t : Ty) : Param.named n d t ∈ ps → (∀ t', Arg.named n t' ∉ args) → Passed ps args d t

/-- The parameters of a function: no variable and no name twice. -/
def Function (ps : List Param) : Prop := (variables ps).Nodup ∧ (names ps).Nodup

/-- The arguments of a call: no name twice. -/
def Call (args : List Arg) : Prop := (argNames args).Nodup

/-! ## Alternatives -/

/-- What a type may be: the alternatives of a union, of bounds, and of the bounds of a variable. -/
inductive Alt (vars : Vars) : Ty → Ty → Prop where
  | leaf (l : Leaf) : Alt vars (.leaf l) (.leaf l)
  | node (h : Head) (ts : List Ty) : h ≠ .union → (∀ n, h ≠ .bounds n) → Alt vars (.node h ts) (.node h ts)
  | union (ts : List Ty) (t a : Ty) : t ∈ ts → Alt vars t a → Alt vars (.node .union ts) a
  | bounds (n : Nat) (ts : List Ty) (t a : Ty) : t ∈ ts → Alt vars t a → Alt vars (.node (.bounds n) ts) a
  | var (d : Nat) (lbs ubs : List Ty) (t a : Ty) : vars d = some (lbs, ubs) → t ∈ lbs ++ ubs → Alt vars t a → Alt vars (.var d) a

/-- Two lists go together, element by element. -/
def Pointwise (R : Ty → Ty → Prop) (as bs : List Ty) : Prop :=
  as.length = bs.length ∧ ∀ (i : Nat) (a b : Ty), as[i]? = some a → bs[i]? = some b → R a b

/-- Down to a depth, every alternative of `t` is one of `u`, and so are those of the types in it. That a type is any type says nothing. -/
def Within (v w : Vars) : Nat → Ty → Ty → Prop
  | 0, _, _ => True
  | n + 1, t, u =>
    (∀ l, l ≠ .any → Alt v t (.leaf l) → Alt w u (.leaf l)) ∧
    ∀ h ts, Alt v t (.node h ts) → ∃ us, Alt w u (.node h us) ∧ Pointwise (Within v w n) ts us

/-- There are no variables. -/
def noVars : Vars := fun _ => none

/-- No variable has itself in its bounds, however far down. -/
def Acyclic (vars : Vars) : Prop :=
  ∃ rank : Nat → Nat, ∀ d lbs ubs, vars d = some (lbs, ubs) → ∀ t, t ∈ lbs ++ ubs → ∀ e, Occurs e t → rank e < rank d

/-- The variables `s` have bounds, in which there are only these. -/
def Closed (vars : Vars) (s : List Nat) : Prop :=
  ∀ d, d ∈ s → ∃ lbs ubs, vars d = some (lbs, ubs) ∧ ∀ t, t ∈ lbs ++ ubs → ∀ e, Occurs e t → e ∈ s

end Tinymist.Types.Spec
