/-!
# Calls: signatures, parameter hints, signature help

Models `func_signature` (tinymist-analysis/src/sig.rs), `analyze_call_no_cache`
(tinymist-query/src/analysis/call.rs), `wind_stack` (analysis/signature.rs), the call case of
`InlayHintWorker::analyze_node` (inlay_hint.rs) and `SignatureHelpRequest::request`
(signature_help.rs).  Types, documentation and default values of parameters are left out: they do not
influence which parameter an argument is matched with.
-/
namespace Tinymist.CallArgs

/-- Names, `StrRef`. -/
abbrev Name := List Char

/-- Rust compares strings by bytes, which for UTF-8 is the order of the code points. -/
def nameLe (a b : Name) : Bool := decide (a ≤ b)

/-- `ParamTy` with its `ParamAttrs`, tinymist-analysis/src/ty/def.rs:590-652. -/
structure Param where
  name : Name
  positional : Bool
  named : Bool
  variadic : Bool
  settable : Bool
  deriving DecidableEq, Repr

/-- The parameters of a closure, `ast::Param`: a pattern (shown as text), a named parameter with a
default, and a sink (without a name: the empty text). -/
inductive ClosureParam where
  | pos (name : Name)
  | named (name : Name)
  | sink (name : Name)
  deriving DecidableEq, Repr

/-- `analyze_closure_signature`, sig.rs:278-324 (`ParamAttrs::positional()`, `named()`, `variadic()`,
ty/def.rs:598-626). -/
def ClosureParam.spec : ClosureParam → Param
  | .pos n => ⟨n, true, false, false, false⟩
  | .named n => ⟨n, false, true, false, false⟩
  | .sink n => ⟨n, true, false, true, false⟩

/-- `PrimarySignature`, sig.rs:72-86: `posSize` is `sig_ty.name_started`, `names` is
`sig_ty.names.names`, `spread` is `sig_ty.spread_right`. -/
structure Sig where
  specs : List Param
  posSize : Nat
  names : List Name
  spread : Bool
  sized : Bool
  deriving DecidableEq, Repr

/-- `pos`, sig.rs:94-97. -/
def Sig.pos (s : Sig) : List Param := s.specs.take s.posSize

/-- `named`, sig.rs:104-107. -/
def Sig.named (s : Sig) : List Param := (s.specs.drop s.posSize).take s.names.length

/-- `get_named`, sig.rs:109-112.  `NameBone::find` is a binary search in a sorted list of different
names: it finds the index of the name. -/
def Sig.getNamed (s : Sig) (n : Name) : Option Param := (s.names.idxOf? n).bind fun i => s.named[i]?

/-- `rest`, sig.rs:119-122. -/
def Sig.rest (s : Sig) : Option Param :=
  if s.spread then s.specs[s.posSize + s.names.length]? else none

/-- `params`, sig.rs:125-138. -/
def Sig.params (s : Sig) : List Param := s.pos ++ s.named ++ s.rest.toList

/-- `matches!(name.as_ref(), "fill" | "stroke" | "size")`, sig.rs:197. -/
def sizedName (n : Name) : Bool :=
  n = ['f', 'i', 'l', 'l'] || n = ['s', 't', 'r', 'o', 'k', 'e'] || n = ['s', 'i', 'z', 'e']

/-- `func_signature`, sig.rs:167-276, for a function with the given parameters.  `named_specs` is a map
from names: the last parameter of a name.  A second variadic parameter is dropped (`broken`). -/
def funcSignature (ps : List Param) : Sig :=
  let pos := ps.filter fun p => !p.variadic && p.positional
  let named := ps.filter (·.named)
  let names := (named.map (·.name)).mergeSort nameLe
  let rest := ps.find? (·.variadic)
  { specs := pos ++ names.filterMap (fun n => named.reverse.find? (fun p => p.name = n)) ++ rest.toList
    posSize := pos.length
    names := names
    spread := rest.isSome
    sized := named.any fun p => sizedName p.name }

/-- The arguments bound by `.with(..)`: `ArgsInfo`, sig.rs:141-155; a positional argument has no
name.  The stack has the last `.with` first. -/
abbrev WithStack := List (List (Option Name))

/-- The `with_stack` of a runtime function, sig.rs:169-184: the arguments as they were given. -/
def runtimeStack (withs : List (List (Option Name))) : WithStack := withs.reverse

/-- One entry of `wind_stack`, signature.rs:206-222: the positional arguments of one `.with`, as many
as there are parameters left; *named* after the parameters they fill. -/
def windOne (accepting : List Param) (n : Nat) : List (Option Name) :=
  (accepting.take n).map fun p => some p.name

/-- `wind_stack`, signature.rs:188-230, for the alias of a function: `withs` are the numbers of
positional arguments of the `.with` calls on the way to the function. -/
def windGo : List Param → List Nat → WithStack
  | _, [] => []
  | accepting, n :: rest =>
    let items := windOne accepting n
    (if items.isEmpty then [] else [items]) ++ windGo (accepting.drop n) rest

def windStack (s : Sig) (base : WithStack) (withs : List Nat) : WithStack :=
  base ++ windGo (s.pos.drop base.length) withs

/-- `param_shift`, sig.rs:57-67. -/
def paramShift (w : WithStack) : Nat := (w.map List.length).sum

/-! ## Matching arguments with parameters -/

/-- `ParamKind`, call.rs:9-16. -/
inductive Kind where
  | positional | named | rest
  deriving DecidableEq, Repr

/-- `CallParamInfo`, call.rs:20-27. -/
structure Info where
  kind : Kind
  content : Bool
  name : Name
  deriving DecidableEq, Repr

/-- `PosState`, call.rs:81-86. -/
inductive PosState where
  | init
  | pos (i : Nat)
  | variadic
  | final
  deriving DecidableEq, Repr

/-- The children of the argument list, call.rs:193-205; `content` for a content block. -/
inductive Arg where
  | lparen
  | rparen
  | other
  | pos (content : Bool)
  | named (name : Name)
  | spread
  deriving DecidableEq, Repr

/-- `PosBuilder::advance`, call.rs:95-137: the next state, and the kind and parameter of the argument.
`none` is a panic (`unwrap`). -/
def advance (s : Sig) : PosState → Option (PosState × Option (Kind × Param))
  | .init =>
    some (if !s.pos.isEmpty then .pos 0 else if s.spread then .variadic else .final, none)
  | .pos i =>
    (s.pos[i]?).map fun p =>
      (if i + 1 < s.posSize then .pos (i + 1) else if s.spread then .variadic else .final,
        some (.positional, p))
  | .variadic => s.rest.map fun p => (.variadic, some (.rest, p))
  | .final => some (.final, none)

/-- `PosBuilder::advance_rest`, call.rs:139-171. -/
def advanceRest (s : Sig) : PosState → Option (PosState × Option (Kind × Param))
  | .init => none
  | .pos _ =>
    some (if s.spread then .variadic else .final, s.rest.map fun p => (.rest, p))
  | .variadic => some (.variadic, s.rest.map fun p => (.rest, p))
  | .final => some (.final, none)

/-- The arguments bound earlier, call.rs:185-189. -/
def skip (s : Sig) (st : PosState) : Nat → Option PosState
  | 0 => some st
  | n + 1 => (advance s st).bind fun r => skip s r.1 n

/-- The positional arguments bound earlier, call.rs:186: those without a name. -/
def unnamed (w : WithStack) : Nat := (w.reverse.map fun a => (a.filter (·.isNone)).length).sum

/-- The loop over the arguments, call.rs:191-226.  The mapping is keyed by the syntax node; nodes of one
source have different spans, so it is a list with one entry for each child. -/
def walk (s : Sig) (outside : Bool) (st : PosState) : List Arg → Option (List (Option Info))
  | [] => some []
  | .lparen :: as => (walk s false st as).map (none :: ·)
  | .rparen :: as => (walk s true st as).map (none :: ·)
  | .other :: as => (walk s outside st as).map (none :: ·)
  | .named n :: as =>
    (walk s outside st as).map ((s.getNamed n).map (fun p => ⟨.named, false, p.name⟩) :: ·)
  | .pos content :: as =>
    (advance s st).bind fun r =>
      (walk s outside r.1 as).map (r.2.map (fun q => ⟨q.1, outside && content, q.2.name⟩) :: ·)
  | .spread :: as =>
    (advanceRest s st).bind fun r =>
      (walk s outside r.1 as).map (r.2.map (fun q => ⟨q.1, false, q.2.name⟩) :: ·)

/-- `analyze_call_no_cache`, call.rs:66-229: what each child of the argument list is matched with. -/
def analyzeCall (s : Sig) (w : WithStack) (args : List Arg) : Option (List (Option Info)) :=
  (advance s .init).bind fun r => (skip s r.1 (unnamed w)).bind fun st => walk s true st args

/-! ## Parameter hints -/

/-- A hint: the byte offset of the argument, whether `..` is put in front, and the name. -/
structure Hint where
  at_ : Nat
  rest : Bool
  name : Name
  deriving DecidableEq, Repr

/-- `check_single_pos_arg`, inlay_hint.rs:125-155, first component.  The early `break` is left out: it
happens when both results are already decided. -/
def singlePos (infos : List (Option Info)) : Bool :=
  let pos := (infos.filter fun i => i.any fun i => i.kind = .positional && !i.content).length
  let hasRest := infos.any fun i => i.any fun i => i.kind = .rest
  pos ≤ (if hasRest then 0 else 1)

/-- The loop over the arguments, inlay_hint.rs:190-262, with the constant configuration `smart()`:
content blocks are never hinted (`on_content_block_args` is false). -/
def hintsGo (sized single first : Bool) : List (Nat × Option Info) → List Hint
  | [] => []
  | (_, none) :: as => hintsGo sized single first as
  | (at_, some i) :: as =>
    if i.name.isEmpty then hintsGo sized single first as
    else match i.kind with
      | .named => hintsGo sized single first as
      | .positional =>
        if sized || i.content || single then hintsGo sized single first as
        else ⟨at_, false, i.name⟩ :: hintsGo sized single first as
      | .rest =>
        if single || !first then hintsGo sized single false as
        else ⟨at_, true, i.name⟩ :: hintsGo sized single false as

/-- The hints of one call: the arguments with their start offsets. -/
def hints (s : Sig) (w : WithStack) (args : List (Nat × Arg)) : Option (List Hint) :=
  (analyzeCall s w (args.map Prod.snd)).map fun infos =>
    hintsGo s.sized (singlePos infos) true ((args.map Prod.fst).zip infos)

/-! ## Signature help -/

/-- `ArgClass`, matcher.rs:862-875: the argument at the cursor. `positional` counts the positional
arguments in front of it (`arg_context`, matcher.rs:1295-1375). -/
inductive Target where
  | positional (n : Nat)
  | named (n : Name)
  deriving DecidableEq, Repr

/-- Is the parameter number `idx` the active one, signature_help.rs:60-74. -/
def isActive (shift : Nat) (isSet : Bool) (t : Target) (idx : Nat) (p : Param) : Bool :=
  match t with
  | .positional n => !isSet && n + shift = idx
  | .named n => n = p.name

/-- The loop over the parameters, signature_help.rs:54-101: `idx`, `real_offset` and
`active_parameter` are the loop variables; the result is the shown names and the active one. -/
def helpGo (shift : Nat) (isSet : Bool) (t : Target) (idx real : Nat) (active : Option Nat) :
    List Param → List Name × Option Nat
  | [] => ([], active)
  | p :: ps =>
    if isSet && !p.settable then helpGo shift isSet t (idx + 1) real active ps
    else
      let active := if isActive shift isSet t idx p then some real else active
      let r := helpGo shift isSet t (idx + 1) (real + 1) active ps
      (p.name :: r.1, r.2)

/-- `SignatureHelpRequest::request`, signature_help.rs:45-130. -/
def help (s : Sig) (w : WithStack) (isSet : Bool) (t : Target) : List Name × Option Nat :=
  let r := helpGo (paramShift w) isSet t 0 0 none s.params
  match t with
  | .positional _ => (r.1, r.2.map fun x => min x (s.posSize - 1))
  | .named _ => r

end Tinymist.CallArgs
