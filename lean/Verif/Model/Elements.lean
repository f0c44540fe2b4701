/-!
# What is expected of an element of an array or a dictionary

Models `check_signature`, `SignatureReceiver` and `sig_context_of` (crates/tinymist-query/src/analysis/post_tyck.rs:27-98, 274-288, 379-385,
427-443), `Ty::sig_surface` for arrays and dictionaries (crates/tinymist-analysis/src/ty/sig.rs:87-96, 135-246), `Ty::bounds`
(ty/bound.rs:134-171) and the constructors of signatures (ty/def.rs:731-748, 797-872, 955-997).

Simplified: a variable is modelled with its bounds in place, so that no variable is bounded by itself. The types of elements are not looked
into, so they are of any type with equality. Types that are neither arrays, dictionaries nor made up of such are alike; what is selected from a
type by a name is among them. `NameBone::find` is a binary search in sorted names and modelled as the search for the first one, which is the
same for names that differ.
-/

namespace Tinymist.Elements

abbrev Text := List Char

/-- The built-in types that a dictionary may stand for (ty/sig.rs:163-187). -/
inductive Builtin where
  | stroke | margin | inset | outset | radius | textFont
  deriving DecidableEq, Repr

/-- Types. -/
inductive Ty (α : Type) where
  | array (elem : α)
  | tuple (elems : List α)
  | dict (fields : List (Text × α))
  | builtin (b : Builtin)
  | param (t : Ty α)
  | union (ts : List (Ty α))
  | bounds (ubs lbs : List (Ty α))
  | other

/-- `SigSurfaceKind` (ty/sig.rs:75-81), without calls. -/
inductive Surface where
  | array | dict | arrayOrDict
  deriving DecidableEq, Repr

/-- `array_as_sig` (ty/sig.rs:150-155). -/
def Surface.arrays : Surface → Bool
  | .array => true
  | .arrayOrDict => true
  | .dict => false

/-- `dict_as_sig` (ty/sig.rs:157-162). -/
def Surface.dicts : Surface → Bool
  | .dict => true
  | .arrayOrDict => true
  | .array => false

/-- What is written around the element (post_tyck.rs:427-443): `(x)`, an array with or without items, a dictionary, or anything else. -/
inductive Around where
  | parenthesized
  | array (items : Nat)
  | dict
  | other

/-- `sig_context_of` (post_tyck.rs:427-443). -/
def surfaceOf : Around → Surface
  | .parenthesized => .arrayOrDict
  | .array n => if n ≠ 0 then .array else .arrayOrDict
  | .dict => .dict
  | .other => .array

/-- `ArgClass` (crates/tinymist-analysis/src/syntax/matcher.rs:864-876): with the name if it is one, and the number of spreads before. -/
inductive Target where
  | named (name : Option Text)
  | positional (spreads n : Nat) (isSpread : Bool)

/-- `SigTy` (ty/def.rs:779-792) without the body; `rest` is what is in the array that is its last input with `spread_right`. -/
structure Sig (α : Type) where
  inputs : List α
  names : List Text
  nameStarted : Nat
  rest : Option α

variable {α : Type}

/-- `SigTy::array_cons` (ty/def.rs:797-808). -/
def arrayCons (t : α) : Sig α := ⟨[], [], 0, some t⟩

/-- `SigTy::tuple_cons` (ty/def.rs:838-853). -/
def tupleCons (ts : List α) : Sig α := ⟨ts, [], ts.length, none⟩

/-- `RecordTy::shape_fields` (ty/def.rs:731-739). -/
def shape (fs : List (Text × α)) : List (Text × α) := fs.mergeSort fun a b => decide (a.1 ≤ b.1)

/-- `SigTy::dict_cons` (ty/def.rs:857-872) of `RecordTy::new`. -/
def dictCons (fs : List (Text × α)) : Sig α := ⟨(shape fs).map Prod.snd, (shape fs).map Prod.fst, 0, none⟩

/-- `SigTy::pos` (ty/def.rs:955-959). -/
def Sig.pos (s : Sig α) (i : Nat) : Option α := if i < s.nameStarted then s.inputs[i]? else none

/-- `SigTy::pos_or_rest` (ty/def.rs:962-974). -/
def Sig.posOrRest (s : Sig α) (i : Nat) : Option α := (s.pos i).or s.rest

/-- `SigTy::named_params` (ty/def.rs:977-982). -/
def Sig.namedParams (s : Sig α) : List (Text × α) := s.names.zip (s.inputs.drop s.nameStarted)

/-- `SigTy::named` (ty/def.rs:985-988). -/
def Sig.named (s : Sig α) (n : Text) : Option α := (s.names.findIdx? (· == n)).bind fun i => s.inputs[i + s.nameStarted]?

/-- What is expected: a type, or a field (`Ty::Param`). -/
inductive Expected (α : Type) where
  | type (t : α)
  | field (name : Text) (t : α)
  deriving DecidableEq, Repr

/-- `SignatureReceiver` (post_tyck.rs:26-31). -/
structure Receiver (α : Type) where
  lbs : List (Expected α)
  ubs : List (Expected α)

variable [DecidableEq α]

/-- `SignatureReceiver::insert` (post_tyck.rs:34-43). -/
def Receiver.insert (r : Receiver α) (e : Expected α) (pol : Bool) : Receiver α :=
  if !pol then (if e ∈ r.lbs then r else { r with lbs := r.lbs ++ [e] })
  else if e ∈ r.ubs then r else { r with ubs := r.ubs ++ [e] }

/-- `check_signature` (post_tyck.rs:50-98); there are no arguments given by `with` to arrays. -/
def check (target : Target) (s : Sig α) (pol : Bool) (r : Receiver α) : Receiver α :=
  match target with
  | .named none => r
  | .named (some n) =>
    match s.named n with
    | none => r
    | some t => r.insert (.type t) (!pol)
  | .positional _ n isSpread =>
    if isSpread then r
    else
      let r := match s.posOrRest (0 + n) with
        | some t => r.insert (.type t) (!pol)
        | none => r
      s.namedParams.foldl (fun r f => r.insert (.field f.1 f.2) (!pol)) r

mutual
/-- `SigCheckDriver::ty` (ty/sig.rs:164-246) and `BoundCheckContext::ty` (ty/bound.rs:153-170). `recordOf` gives the fields of built-in types
(ty/builtin.rs:638-706). -/
def surface (recordOf : Builtin → List (Text × α)) (kind : Surface) (target : Target) : Ty α → Bool → Receiver α → Receiver α
  | .builtin b, pol, r => if kind.dicts then check target (dictCons (recordOf b)) pol r else r
  | .array t, pol, r => if kind.arrays then check target (arrayCons t) pol r else r
  | .tuple ts, pol, r => if kind.arrays then check target (tupleCons ts) pol r else r
  | .dict fs, pol, r => if kind.dicts then check target (dictCons fs) pol r else r
  | .param t, pol, r => surface recordOf kind target t pol r
  | .union ts, pol, r => surfaces recordOf kind target ts pol r
  | .bounds ubs lbs, pol, r => surfaces recordOf kind target lbs (!pol) (surfaces recordOf kind target ubs pol r)
  | .other, _, r => r

/-- `BoundCheckContext::tys` (ty/bound.rs:147-151). -/
def surfaces (recordOf : Builtin → List (Text × α)) (kind : Surface) (target : Target) : List (Ty α) → Bool → Receiver α → Receiver α
  | [], _, r => r
  | t :: ts, pol, r => surfaces recordOf kind target ts pol (surface recordOf kind target t pol r)
end

/-- The arm for elements of `check_cursor` (post_tyck.rs:274-288). -/
def expected (recordOf : Builtin → List (Text × α)) (around : Around) (target : Target) (container : Ty α) : Receiver α :=
  surface recordOf (surfaceOf around) target container false ⟨[], []⟩

end Tinymist.Elements
