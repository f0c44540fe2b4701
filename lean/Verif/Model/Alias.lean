/-!
# The signature of a function that is known by its type, also under another name

Models `sig_of_type`, `wind_stack`, `find_alias_stack` and `AliasStackChecker`
(`crates/tinymist-query/src/analysis/signature.rs` 74-318), `Ty::sources` and `Ty::bounds`
(`crates/tinymist-analysis/src/ty/bound.rs` 9-171) and `Ty::sig_repr` (`crates/tinymist-analysis/src/ty/sig.rs` 95-130, 135-246).

Simplified: a variable is modelled with its bounds and its documentation in place, so that no variable is bounded by itself; types that are
neither a function, an alias of one nor made up of such are all alike; names, texts and the types of parameters are numbers.
-/

namespace Tinymist.Alias

/-- The type of a function: types of its positional parameters, names and types of its named ones, and the type for the rest
(ty/def.rs 905-997). -/
structure SigTy where
  pos : List Nat
  named : List (Nat × Nat)
  rest : Option Nat
  deriving DecidableEq, Repr

/-- What is documented of a parameter (docs/def.rs 60-72). -/
structure ParamDoc where
  name : Nat
  docs : Nat
  default : Option Nat
  deriving DecidableEq, Repr

/-- What is documented of a function (docs/def.rs 90-110). -/
structure FnDocs where
  docs : Nat
  pos : List ParamDoc
  named : List (Nat × ParamDoc)
  rest : Option ParamDoc
  deriving DecidableEq, Repr

/-- What is documented of a variable: `UntypedDefDocs`, or nothing (signature.rs 105-109). -/
inductive VarDocs where
  | function (d : FnDocs)
  | variable
  | other
  deriving DecidableEq, Repr

/-- Types, as far as they matter: a variable; a function with positional arguments given in advance by `with`; one of several; bounds; the
type of a function; a value or built-in type that is a function, or, with nothing, has no constructor (bound.rs 50-66, 74-89). -/
inductive Ty where
  | var (docs : VarDocs) (ubs lbs : List Ty)
  | bind (sig : Ty) (args : Nat)
  | union (tys : List Ty)
  | bounds (ubs lbs : List Ty)
  | func (sig : SigTy)
  | known (f : Option Nat)
  | other

/-- What a name leads to: a function that is documented, or one that is known. -/
inductive Target where
  | user (d : FnDocs)
  | known (f : Nat)
  deriving DecidableEq, Repr

/-! ## Going through aliases -/

/-- `AliasStackChecker` (signature.rs 249-256): the top of the stack is first here. -/
structure St where
  stack : List (Option Nat)
  res : Option Target
  checking : Bool
  deriving DecidableEq, Repr

/-- `self.stack.last_mut().unwrap().1 = Some(w)` (signature.rs 297). -/
def setTop (n : Nat) : List (Option Nat) → List (Option Nat)
  | [] => []
  | _ :: l => some n :: l

mutual

/-- `BoundCheckContext::ty` (bound.rs 153-170) with `check_var` and `collect` of `AliasStackChecker` (signature.rs 258-318). -/
def walk : Ty → St → St
  | .union l, s => walks l s
  | .bounds ubs lbs, s => walks lbs (walks ubs s)
  | .var d ubs lbs, s =>
    if s.res.isSome then s
    else if s.checking then walks lbs (walks ubs s)
    else
      match d with
      | .function d => { s with res := some (.user d) }
      | .variable =>
        let r := walks lbs (walks ubs { s with checking := true, stack := none :: s.stack })
        { r with stack := r.stack.tail, checking := false }
      | .other => s
  | .bind t n, s =>
    if s.res.isSome then s
    else if s.checking then { walk t { s with stack := setTop n s.stack, checking := false } with checking := true }
    else s
  | .known f, s =>
    if s.res.isSome then s
    else if s.checking then s
    else
      match f with
      | some f => { s with res := some (.known f) }
      | none => s
  | .func _, s => s
  | .other, s => s

/-- `BoundCheckContext::tys` (bound.rs 147-151). -/
def walks : List Ty → St → St
  | [], s => s
  | t :: l, s => walks l (walk t s)

end

/-- `find_alias_stack` (signature.rs 234-248); `check_var` at first, as the type is a variable. -/
def findAlias (ubs lbs : List Ty) : Option (List (Option Nat) × Target) :=
  let s := walk (.var .variable ubs lbs) ⟨[none], none, true⟩
  s.res.map fun r => (s.stack.reverse, r)

/-! ## Signatures -/

/-- `ParamAttrs` (ty/def.rs 598-626). -/
inductive PKind where
  | positional | named | variadic
  deriving DecidableEq, Repr

/-- `ParamTy`. -/
structure Param where
  name : Nat
  docs : Option Nat
  default : Option Nat
  ty : Option Nat
  kind : PKind
  deriving DecidableEq, Repr

/-- `PrimarySignature` (tinymist-analysis/src/sig.rs 72-86), without what it says of strokes. -/
structure Primary where
  docs : Option Nat
  params : List Param
  sig : SigTy
  deriving DecidableEq, Repr

/-- `pos` (sig.rs 94-97). -/
def Primary.pos (p : Primary) : List Param := p.params.take p.sig.pos.length

/-- `Signature` (sig.rs 18-28): with the arguments given in advance if it is partial, each with the name of its parameter if it is known. -/
structure Sig where
  primary : Primary
  stack : Option (List (List (Option Nat)))
  deriving DecidableEq, Repr

/-- `param_shift` (sig.rs 57-67). -/
def Sig.shift (s : Sig) : Nat := ((s.stack.getD []).map List.length).sum

/-- The loop of `wind_stack` (signature.rs 201-222). -/
def wind : List Param → List (Option Nat) → List (List (Option Nat))
  | _, [] => []
  | ps, none :: l => wind ps l
  | ps, some n :: l => (if (ps.take n).isEmpty then [] else [(ps.take n).map fun p => some p.name]) ++ wind (ps.drop n) l

/-- `wind_stack` (signature.rs 188-230). -/
def windStack (withs : List (Option Nat)) (s : Sig) : Sig :=
  if withs.isEmpty then s
  else
    let base := s.stack.getD []
    ⟨s.primary, some (base ++ wind (s.primary.pos.drop base.length) withs)⟩

mutual

/-- The signatures `sig_repr` comes across (ty/sig.rs 157-246); `sigOf` is the type of a known function. -/
def sigs (sigOf : Nat → Option SigTy) : Ty → List SigTy
  | .func s => [s]
  | .known f => (f.bind sigOf).toList
  | .bind t _ => sigs sigOf t
  | .union l => sigss sigOf l
  | .bounds ubs lbs => sigss sigOf ubs ++ sigss sigOf lbs
  | .var _ ubs lbs => sigss sigOf ubs ++ sigss sigOf lbs
  | .other => []

def sigss (sigOf : Nat → Option SigTy) : List Ty → List SigTy
  | [] => []
  | t :: l => sigs sigOf t ++ sigss sigOf l

end

/-- `sig_repr` (ty/sig.rs 95-130): the last one. -/
def sigRepr (sigOf : Nat → Option SigTy) (t : Ty) : Option SigTy := (sigs sigOf t).getLast?

mutual

/-- `Ty::sources` (bound.rs 92-136): variables and known functions. -/
def sources : Ty → List Ty
  | .known f => [.known f]
  | .var d ubs lbs => [.var d ubs lbs]
  | .bind t _ => sources t
  | .union l => sourcess l
  | .bounds ubs lbs => sourcess ubs ++ sourcess lbs
  | .func _ => []
  | .other => []

def sourcess : List Ty → List Ty
  | [] => []
  | t :: l => sources t ++ sourcess l

end

/-- `type_info.simplify` of the type of a function is the type of a function again (ty/simplify.rs 193, 304-313). -/
def SigTy.map (f : Nat → Nat) (s : SigTy) : SigTy := ⟨s.pos.map f, s.named.map fun x => (x.1, f x.2), s.rest.map f⟩

/-- The signature of a documented function (signature.rs 114-181). `unknown` is the text for a default value that is not known. -/
def documented (unknown : Nat) (d : FnDocs) (s : SigTy) : Option Primary :=
  if d.pos.length ≠ s.pos.length then none
  else
    some
      ⟨some d.docs,
        (d.pos.zip s.pos).map (fun x => ⟨x.1.name, some x.1.docs, x.1.default, some x.2, .positional⟩) ++
          s.named.map (fun x =>
            let doc := d.named.lookup x.1
            ⟨x.1, doc.map ParamDoc.docs, some ((doc.bind ParamDoc.default).getD unknown), some x.2, .named⟩) ++
          (d.rest.map fun p => (⟨p.name, some p.docs, p.default, s.rest, .variadic⟩ : Param)).toList,
        s⟩

/-- `sig_of_type` (signature.rs 74-186). `le` is the order of sources, `ofFunc` is `type_of_func`. -/
def sigOfType (le : Ty → Ty → Bool) (sigOf : Nat → Option SigTy) (ofFunc : Nat → Sig) (simplify : Nat → Nat) (unknown : Nat) (t : Ty) :
    Option Sig :=
  match ((sources t).mergeSort le).head? with
  | none => none
  | some (.var docs ubs lbs) =>
    (sigRepr sigOf t).bind fun s =>
      match docs with
      | .function d => (documented unknown d (s.map simplify)).map fun p => windStack [] ⟨p, none⟩
      | .variable =>
        match findAlias ubs lbs with
        | none => none
        | some (withs, .known f) => some (windStack withs (ofFunc f))
        | some (withs, .user d) => (documented unknown d (s.map simplify)).map fun p => windStack withs ⟨p, none⟩
      | .other => none
  | some (.known (some f)) => some (ofFunc f)
  | some _ => none

end Tinymist.Alias
