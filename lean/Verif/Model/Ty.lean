/-!
# Types (tinymist-analysis/src/ty, tinymist-query/src/analysis/tyck)

Simplified: a type is a leaf, a variable, or a node that has a head and the types in it as children, in the order in which the code goes
through them. Names are numbered in their order, declarations, operators, built-in types and values are numbers. Interning is left out.
-/

namespace Tinymist.Types

/-- The shape of a signature (ty/def.rs 770-784), without its types. -/
structure Shape where
  names : List Nat
  start : Nat
  left : Bool
  right : Bool
deriving DecidableEq, Repr

inductive Kind where
  | func
  | args
  | pattern
deriving DecidableEq, Repr

/-- The variants of `Ty` that hold no types (ty/def.rs 36-86). -/
inductive Leaf where
  | any
  | bool (b : Option Bool)
  | builtin (k : Nat)
  | value (v : Nat)
deriving DecidableEq, Repr

/-- The variants of `Ty` that hold types (ty/def.rs 36-86). The children of `bounds` are the `lower` lower bounds and then the upper
ones; those of a signature are its inputs and then its body, if it has one. -/
inductive Head where
  | param (name : Nat)
  | union
  | bounds (lower : Nat)
  | dict (names : List Nat)
  | array
  | tuple
  | sig (k : Kind) (s : Shape) (body : Bool)
  | withArgs (s : Shape) (body : Bool)
  | select (name : Nat)
  | unary (op : Nat)
  | binary (op : Nat)
  | cond
deriving DecidableEq, Repr

/-- `Ty` (ty/def.rs 36-86). -/
inductive Ty where
  | leaf (l : Leaf)
  | var (d : Nat)
  | node (h : Head) (ts : List Ty)

mutual
def Ty.same : (a b : Ty) → Decidable (a = b)
  | .leaf a, .leaf b => if h : a = b then isTrue (by rw [h]) else isFalse (by intro e; cases e; exact h rfl)
  | .var a, .var b => if h : a = b then isTrue (by rw [h]) else isFalse (by intro e; cases e; exact h rfl)
  | .node g as, .node h bs =>
    match decEq g h, Ty.sameList as bs with
    | isTrue e, isTrue f => isTrue (by rw [e, f])
    | isFalse e, _ => isFalse (by intro x; cases x; exact e rfl)
    | _, isFalse f => isFalse (by intro x; cases x; exact f rfl)
  | .leaf _, .var _ => isFalse (by simp)
  | .leaf _, .node _ _ => isFalse (by simp)
  | .var _, .leaf _ => isFalse (by simp)
  | .var _, .node _ _ => isFalse (by simp)
  | .node _ _, .leaf _ => isFalse (by simp)
  | .node _ _, .var _ => isFalse (by simp)

def Ty.sameList : (as bs : List Ty) → Decidable (as = bs)
  | [], [] => isTrue rfl
  | [], _ :: _ => isFalse (by simp)
  | _ :: _, [] => isFalse (by simp)
  | a :: as, b :: bs =>
    match Ty.same a b, Ty.sameList as bs with
    | isTrue e, isTrue f => isTrue (by rw [e, f])
    | isFalse e, _ => isFalse (by intro x; cases x; exact e rfl)
    | _, isFalse f => isFalse (by intro x; cases x; exact f rfl)
end

instance : DecidableEq Ty := Ty.same

abbrev Ty.any : Ty := .leaf .any

/-- `SigTy` (ty/def.rs 768-784). -/
structure SigTy where
  inputs : List Ty
  body : Option Ty
  shape : Shape
deriving DecidableEq

/-- A signature as a type. -/
def SigTy.ty (k : Kind) (s : SigTy) : Ty := .node (.sig k s.shape s.body.isSome) (s.inputs ++ s.body.toList)

/-- `Ty::from_types` (ty/def.rs 151-168): `sort` is the sort of the vector. -/
def fromTypes (sort : List Ty → List Ty) (ts : List Ty) : Ty :=
  match ts with
  | [] => .any
  | [t] => t
  | ts => .node .union (sort ts)

/-! ## Signatures -/

/-- `SigTy::new` (ty/def.rs 870-904) with `RecordTy::shape_fields` (ty/def.rs 733-741). -/
def newSig (pos : List Ty) (named : List (Nat × Ty)) (left right : Option Ty) (body : Option Ty) : SigTy :=
  let fields := named.mergeSort fun a b => decide (a.1 ≤ b.1)
  let inputs := pos ++ fields.map (·.2) ++ left.toList ++ right.toList
  let start := inputs.length - ((if right.isSome then 1 else 0) + fields.length)
  ⟨inputs, body, ⟨fields.map (·.1), start, left.isSome, right.isSome⟩⟩

/-- `positional_params` (ty/def.rs 944-946). -/
def SigTy.positional (s : SigTy) : List Ty := s.inputs.take s.shape.start

/-- `rest_param` (ty/def.rs 985-991). -/
def SigTy.rest (s : SigTy) : Option Ty := if s.shape.right then s.inputs.getLast? else none

/-- `NameBone::intersect_enumerate` (ty/def.rs 375-405), on names with their indices. -/
def intersect : List (Nat × Nat) → List (Nat × Nat) → List (Nat × Nat)
  | (i, a) :: as, (j, b) :: bs =>
    if a < b then intersect as ((j, b) :: bs)
    else if b < a then intersect ((i, a) :: as) bs
    else (i, j) :: intersect as bs
  | _, _ => []
termination_by l r => l.length + r.length

/-- Names with their indices. -/
def numbered (names : List Nat) : List (Nat × Nat) := names.mapIdx fun i n => (i, n)

/-- `common_iface_fields` (ty/def.rs 487-502) of signatures, with `field_by_bone_offset` (ty/def.rs 931-933). -/
def common (s args : SigTy) : List (Ty × Ty) :=
  (intersect (numbered s.shape.names) (numbered args.shape.names)).filterMap fun p =>
    match s.inputs[p.1 + s.shape.start]?, args.inputs[p.2 + args.shape.start]? with
    | some l, some r => some (l, r)
    | _, _ => none

/-- `a.chain(rest.cycle()).take(n)` (ty/def.rs 1026-1027). -/
def stream (pos : List Ty) (rest : Option Ty) (n : Nat) : List Ty :=
  match rest with
  | none => pos.take n
  | some r => (pos ++ List.replicate n r).take n

/-- `SigTy::matches` (ty/def.rs 994-1041). -/
def SigTy.matches (s args : SigTy) (withs : List SigTy) : List (Ty × Ty) :=
  let withLen := (withs.map fun w => w.positional.length).sum
  let maxLen := max s.positional.length (withLen + args.positional.length) + (if s.rest.isSome && args.rest.isSome then 1 else 0)
  let argPos := withs.reverse.flatMap SigTy.positional ++ args.positional
  (stream s.positional s.rest maxLen).zip (stream argPos args.rest maxLen) ++
    (withs.reverse.flatMap (common s) ++ common s args)

/-! ## Substitution -/

mutual
/-- `SubstituteChecker` (ty/subst.rs 33-58) with `mutate_rec` (ty/mutate.rs 7-28): nothing if nothing changes. -/
def mutate (b : Nat → Option Ty) : Ty → Option Ty
  | .leaf _ => none
  | .var d => b d
  | .node h ts =>
    match h with
    | .bounds _ => none
    | h => (mutateList b ts).map (Ty.node h)

/-- `mutate_vec` (ty/mutate.rs 30-50); the other functions of the file do the same for their fields. -/
def mutateList (b : Nat → Option Ty) : List Ty → Option (List Ty)
  | [] => none
  | t :: ts =>
    match mutate b t, mutateList b ts with
    | none, none => none
    | t', ts' => some (t'.getD t :: ts'.getD ts)
end

/-- The local bindings of `check_bind` (ty/subst.rs 17-30): the last one of a variable stays. -/
def bindings (pairs : List (Ty × Ty)) (d : Nat) : Option Ty :=
  (pairs.reverse.find? fun p => decide (p.1 = .var d)).map (·.2)

/-- `Sig::call` (ty/subst.rs 5-14). -/
def SigTy.call (s args : SigTy) (withs : List SigTy) : Option Ty :=
  s.body.map fun body => (mutate (bindings (s.matches args withs)) body).getD body

/-! ## Functions and calls -/

/-- A parameter of a closure, with the declaration of its variable; the type of a default. -/
inductive Param where
  | pos (d : Nat)
  | named (name d : Nat) (default : Ty)
  | spread (d : Nat)
deriving DecidableEq

/-- An argument of a call with its type. -/
inductive Arg where
  | pos (t : Ty)
  | named (name : Nat) (t : Ty)
  | spread (t : Ty)
deriving DecidableEq

/-- `check_args` (tyck/syntax.rs 102-129). -/
def checkArgs (args : List Arg) : SigTy :=
  newSig (args.filterMap fun | .pos t => some t | _ => none) (args.filterMap fun | .named n t => some (n, t) | _ => none) none none none

/-- The sink that `check_closure` calls the right one (syntax/expr.rs 427-466): one behind a positional parameter, or any if there are
none of these. The inputs so far are counted by `pos`. -/
def rightSpread : List Param → Nat → Option Nat → Option Nat → Option Nat
  | [], pos, left, right => if pos = 0 then left else right
  | .pos _ :: ps, pos, left, right => rightSpread ps (pos + 1) left right
  | .named _ _ _ :: ps, pos, left, right => rightSpread ps pos left right
  | .spread d :: ps, pos, left, right => if pos = 0 then rightSpread ps pos (some d) right else rightSpread ps pos left (some d)

/-- `check_func` with `check_pattern_sig` (tyck/syntax.rs 164-285, 384-420): the signature and the defaults. The parameters are plain
names. The type the documentation gives for the result is `annotated`. -/
def checkFunc (ps : List Param) (annotated : Option Ty) (body : Ty) : SigTy × List (Nat × Ty) :=
  let res := match annotated with
    | some a => .node (.bounds 1) [body, a]
    | none => body
  (newSig (ps.filterMap fun | .pos d => some (Ty.var d) | _ => none) (ps.filterMap fun | .named n d _ => some (n, .var d) | _ => none)
    none ((rightSpread ps 0 none none).map .var) (some res),
   ps.filterMap fun | .named n _ t => some (n, t) | _ => none)

/-- The types a call goes through (ty/sig.rs 193-195, 223-227): a signature, with arguments given before. -/
inductive Callee where
  | func (s : SigTy)
  | withArgs (f : Callee) (w : SigTy)

/-- `Ty::call` (ty/apply.rs 11-13, 39-64, ty/sig.rs 223-227): the arguments given before, those given last first. -/
def Callee.call : Callee → List SigTy → SigTy → Option Ty
  | .func s, withs, args => s.call args withs
  | .withArgs f w, withs, args => f.call (withs ++ [w]) args

/-- The type of a closure (tyck/syntax.rs 407-416): the defaults are arguments given before. -/
def funcType (ps : List Param) (annotated : Option Ty) (body : Ty) : Callee :=
  let (sig, defaults) := checkFunc ps annotated body
  if defaults = [] then .func sig else .withArgs (.func sig) (newSig [] defaults none none none)

/-- The type of `f.with(..)` (tyck/apply.rs 152-160), for each of the lists of arguments, and then of a call (tyck/syntax.rs 358-378).
The callee is a closure: values, elements and types that are called are left out, and so are callees with several types. -/
def callType (ps : List Param) (annotated : Option Ty) (body : Ty) (given : List (List Arg)) (args : List Arg) : Option Ty :=
  (given.foldl (fun f a => Callee.withArgs f (checkArgs a)) (funcType ps annotated body)).call [] (checkArgs args)

/-- The type of `tuple.at(index)` (tyck/apply.rs 96-131): `index` if the argument is a number, as an unsigned number. -/
def tupleAt (sort : List Ty → List Ty) (elems : List Ty) (index : Option Nat) : Ty :=
  match index.bind (elems[·]?) with
  | some t => t
  | none => fromTypes sort elems

/-! ## Simplification -/

/-- The bounds of the variables: lower and upper ones, in the order in which the sets are gone through. -/
abbrev Vars := Nat → Option (List Ty × List Ty)

/-- The results for variables (ty/simplify.rs 46). -/
abbrev Cache := List (Nat × Ty)

/-- The end of `transform_let` (ty/simplify.rs 283-300), with `principal` false: the sets have no element twice. -/
def closeBounds (sort : List Ty → List Ty) (lbs ubs : List Ty) : Ty :=
  let lbs := lbs.eraseDups
  let ubs := ubs.eraseDups
  match lbs, ubs with
  | [], [] => .any
  | [t], [] => t
  | [], [t] => t
  | _, _ => .node (.bounds lbs.length) (sort lbs ++ sort ubs)

mutual
/-- `transform` (ty/simplify.rs 166-244), with `principal` false, as everywhere but in tests: the polarity has no effect then. A
variable without bounds is an `unwrap` of nothing: `none`, as is running out of `fuel`. -/
def transform (sort : List Ty → List Ty) (vars : Vars) : Nat → Ty → Cache → Option (Ty × Cache)
  | 0, _, _ => none
  | _ + 1, .leaf l, c => some (.leaf l, c)
  | fuel + 1, .var d, c =>
    match c.lookup d with
    | some t => some (t, c)
    | none =>
      match vars d with
      | none => none
      | some (lbs, ubs) =>
        match transformSeq sort vars fuel lbs ((d, .any) :: c) with
        | none => none
        | some (lbs', c1) =>
          match transformSeq sort vars fuel ubs c1 with
          | none => none
          | some (ubs', c2) => some (closeBounds sort lbs' ubs', (d, closeBounds sort lbs' ubs') :: c2)
  | fuel + 1, .node h ts, c =>
    match transformSeq sort vars fuel ts c with
    | none => none
    | some (ts', c') =>
      match h with
      | .union => some (fromTypes sort (ts'.filter fun t => decide (t ≠ .any)), c')
      | .bounds n => some (closeBounds sort (ts'.take n) (ts'.drop n), c')
      | h => some (.node h ts', c')

/-- `transform_seq` (ty/simplify.rs 246-249). -/
def transformSeq (sort : List Ty → List Ty) (vars : Vars) : Nat → List Ty → Cache → Option (List Ty × Cache)
  | 0, _, _ => none
  | _ + 1, [], c => some ([], c)
  | fuel + 1, t :: ts, c =>
    match transform sort vars fuel t c with
    | none => none
    | some (t', c1) =>
      match transformSeq sort vars fuel ts c1 with
      | none => none
      | some (ts', c2) => some (t' :: ts', c2)
end

/-- `TypeInfo::simplify` (ty/simplify.rs 20-39, 53-62): the cache of whole types is never written. -/
def simplify (sort : List Ty → List Ty) (vars : Vars) (fuel : Nat) (t : Ty) : Option Ty := (transform sort vars fuel t []).map (·.1)

end Tinymist.Types
