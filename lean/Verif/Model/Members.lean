/-!
# What is offered behind a dot, and of a module of which all is imported

Models `CompletionScopeChecker` and `def_completions` (`crates/tinymist-query/src/analysis/completion/scope.rs` 9-41, 109-192, 205-361),
`Ty::iface_surface` and `IfaceCheckDriver` (`crates/tinymist-analysis/src/ty/iface.rs` 92-307), `Ty::bounds`
(`crates/tinymist-analysis/src/ty/bound.rs` 10-22, 140-170) and `type_to_completion_kind` and `fold_ty_kind`
(`crates/tinymist-query/src/analysis/completion/kind.rs` 241-281).

Simplified: a variable is modelled with its bounds in place, so that no variable is bounded by itself; types, values and texts are numbers; what a
module exports is given, as are the scopes of types, functions and elements, which are typst's. The order of the names, which is that of their
texts, is not modelled.
-/

namespace Tinymist.Members

/-- A value in a scope: a function with the names of its parameters and whether they are required, where they are known; or something else. -/
inductive Val where
  | func (id : Nat) (params : Option (List (String × Bool)))
  | other (id : Nat)
  deriving DecidableEq, Repr

abbrev Scope := List (String × Val)

/-- A type: the fields its values have by `fields_on`, and its scope. -/
structure TypeDef where
  fields : List String
  scope : Scope
  deriving DecidableEq, Repr

/-- A field of an element (scope.rs 274-300): its name; the type and documentation of the parameter of that name; the type of what styles give. -/
structure Field where
  name : String
  param : Option (Nat × Nat)
  style : Option Nat
  deriving DecidableEq, Repr

/-- `Iface` (iface.rs 7-39); `self` is the type it is of (`to_type`, 42-56). A module by its file is with the exports of its types if they are
valid, or the scope of its evaluation if there is one. -/
inductive Iface where
  | array (self : Nat)
  | tuple (self : Nat)
  | dict (self : Nat) (fields : List (String × Nat))
  | content (fields : List Field) (scope : Scope)
  | typeType (t : TypeDef)
  | type (self : Nat) (t : TypeDef)
  | func (self : Nat) (scope : Option Scope)
  | value (fields : Scope)
  | module (exports : List (String × Nat) ⊕ Option Scope)
  | moduleVal (scope : Scope)
  deriving DecidableEq, Repr

/-- Types, as far as they matter: one with an interface, one without, one of several, bounds, and a variable with its bounds. -/
inductive Ty where
  | leaf (i : Iface)
  | unknown
  | union (tys : List Ty)
  | bounds (ubs lbs : List Ty)
  | var (ubs lbs : List Ty)

mutual

/-- `IfaceCheckDriver::ty` (iface.rs 137-306) with `BoundCheckContext::ty` (bound.rs 153-170): the interfaces that are checked, in order. -/
def surface : Ty → List Iface
  | .leaf i => [i]
  | .unknown => []
  | .union l => surfaces l
  | .bounds ubs lbs => surfaces ubs ++ surfaces lbs
  | .var ubs lbs => surfaces ubs ++ surfaces lbs

/-- `BoundCheckContext::tys` (bound.rs 147-151). -/
def surfaces : List Ty → List Iface
  | [] => []
  | t :: l => surface t ++ surfaces l

end

/-- What a name stands for: anything, a value, a function with the thing before the dot as its first argument, a type, or a type or `none`. -/
inductive Got where
  | any
  | val (v : Val)
  | bound (self : Nat) (v : Val)
  | ty (t : Nat)
  | optional (t : Nat)
  deriving DecidableEq, Repr

/-- Whether a function takes the thing before the dot first (scope.rs 229-236). -/
def takesSelf : Val → Bool
  | .func _ (some params) => ((params.find? fun p => p.2).map fun p => p.1) == some "self"
  | _ => false

/-- `type_methods` (scope.rs 221-250). -/
def typeMethods (self : Option Nat) (t : TypeDef) : List (String × Got) :=
  t.fields.map (fun n => (n, .any)) ++
    t.scope.map fun nv =>
      (nv.1, match self with
        | some s => if takesSelf nv.2 then .bound s nv.2 else .val nv.2
        | none => .val nv.2)

/-- The type of a field of an element (scope.rs 284-291). -/
def fieldTy (f : Field) : Got :=
  match f.param, f.style with
  | some (p, _), none => .ty p
  | some (p, _), some _ => .optional p
  | none, some s => .optional s
  | none, none => .any

/-- `insert_scope` (scope.rs 33-40): what it inserts. -/
def ofScope (s : Scope) : List (String × Got) := s.map fun nv => (nv.1, .val nv.2)

/-- `ScopeCheckKind` (scope.rs 205-208). -/
inductive CheckKind where
  | importAll
  | fieldAccess
  deriving DecidableEq, Repr

/-- The types of functions, arrays, dictionaries and content, which are typst's; those of the last two are not used by the code here. -/
structure Builtins where
  func : TypeDef
  array : TypeDef
  dict : TypeDef
  content : TypeDef

/-- `CompletionScopeChecker::check` (scope.rs 253-360): what is inserted for an interface, by the arms in their order. -/
def entries (b : Builtins) (k : CheckKind) (i : Iface) : List (String × Got) :=
  match i, k with
  | .dict _ fields, .fieldAccess => fields.map fun nt => (nt.1, .ty nt.2)
  | .value fields, .fieldAccess => ofScope fields
  | .content fields _, .fieldAccess => fields.map fun f => (f.name, fieldTy f)
  | .type self t, .fieldAccess => typeMethods (some self) t
  | .typeType t, .fieldAccess => typeMethods none t
  | .func self _, .fieldAccess => typeMethods (some self) b.func
  | .array self, .fieldAccess => typeMethods (some self) b.array
  | .tuple self, .fieldAccess => typeMethods (some self) b.array
  | .content _ scope, .importAll => ofScope scope
  | .typeType t, .importAll => ofScope t.scope
  | .type _ t, .importAll => ofScope t.scope
  | .func _ scope, .importAll => (scope.map ofScope).getD []
  | .module (.inl exports), _ => exports.map fun nt => (nt.1, .ty nt.2)
  | .module (.inr scope), _ => (scope.map ofScope).getD []
  | .moduleVal scope, _ => ofScope scope
  | .array _, .importAll => []
  | .tuple _, .importAll => []
  | .dict _ _, .importAll => []
  | .value _, .importAll => []

/-- The documentation that is inserted for an interface (scope.rs 296-298). -/
def docsOf (k : CheckKind) (i : Iface) : List (String × Nat) :=
  match i, k with
  | .content fields _, .fieldAccess => fields.filterMap fun f => f.param.map fun p => (f.name, p.2)
  | _, _ => []

/-- `Defines::insert` (scope.rs 18-27): the first of a name is kept. -/
def insert (d : List (String × Got)) (e : String × Got) : List (String × Got) :=
  if e.1 = "" then d else if (d.lookup e.1).isSome then d else d ++ [e]

/-- `defines.docs.insert` (scope.rs 297): the last of a name is kept. -/
def insertDocs (d : List (String × Nat)) (e : String × Nat) : List (String × Nat) := e :: d.filter fun x => x.1 ≠ e.1

/-- `iface_surface` with `CompletionScopeChecker`: `Defines` (field_access.rs 28-49, scope.rs 76-89). -/
def defines (b : Builtins) (k : CheckKind) (t : Ty) : List (String × Got) := ((surface t).flatMap (entries b k)).foldl insert []

def docs (k : CheckKind) (t : Ty) : List (String × Nat) := ((surface t).flatMap (docsOf k)).foldl insertDocs []

/-! ## Items -/

/-- `SurroundingSyntax`. -/
inductive Around where
  | regular | stringContent | selector | showTransform | importList | setRule | paramList
  deriving DecidableEq, Repr

/-- What `CompletionKindChecker` says of a type: whether it found a symbol; and, of the functions found, whether each is an element with a parameter
that can be set. -/
structure Shape where
  symbol : Bool
  funcs : List Bool
  deriving DecidableEq, Repr

/-- An item: how the name is offered. -/
inductive Item where
  | symbol (name : String)
  | func (name : String) (detail : Nat)
  | plain (name : String) (detail : Nat)
  deriving DecidableEq, Repr

/-- The filter of `def_completions` (scope.rs 121-152). -/
def allowed (a : Around) (s : Shape) : Bool :=
  match a with
  | .regular => true
  | .stringContent => false
  | .importList | .paramList => false
  | .selector | .showTransform => true
  | .setRule => s.funcs.any id

/-- `def_completions` (scope.rs 109-191). `describe` is the text for a type, or "any". -/
def items (shape : Got → Shape) (describe : Got → Nat) (a : Around) (d : List (String × Got)) (docs : List (String × Nat)) : List Item :=
  d.filterMap fun e =>
    if e.1 = "" then none
    else
      let s := shape e.2
      if !allowed a s then none
      else if s.symbol then some (.symbol e.1)
      else
        let detail := (docs.lookup e.1).getD (describe e.2)
        if s.funcs.isEmpty then some (.plain e.1 detail) else some (.func e.1 detail)

/-! ## The kind of an item -/

/-- `CompletionKind`, as far as types give it. -/
inductive Kind where
  | func | variable | module | type | constant | symbol (c : Char)
  deriving DecidableEq, Repr

/-- Types for their kind: one whose kind is known by itself, or one of several. -/
inductive KTy where
  | one (k : Kind)
  | several (l : List KTy)

mutual

/-- `type_to_completion_kind` (kind.rs 241-267). -/
def kindOf : KTy → Kind
  | .one k => k
  | .several l => (kindFold none l).getD .variable

/-- `fold_ty_kind` (kind.rs 269-281). -/
def kindFold : Option Kind → List KTy → Option Kind
  | acc, [] => acc
  | acc, t :: l =>
    kindFold
      (match acc with
        | some .variable => some .variable
        | some k => if k = kindOf t then some k else some .variable
        | none => some (kindOf t)) l

end

end Tinymist.Members
