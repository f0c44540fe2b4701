import Verif.Model.Pointer

/-!
# Which argument the cursor is in, and what is around it

Models `classify_context` with `callee_context` and `arg_context`, `bad_completion_cursor` and `surrounding_syntax` with
`check_surrounding_syntax`, `check_previous_syntax` and `enclosed_by` (crates/tinymist-analysis/src/syntax/matcher.rs:909-1043, 1174-1408),
and what signature help begins with (crates/tinymist-query/src/signature_help.rs:28-42). Completion begins with the same functions on the
leaf before the cursor (crates/tinymist-query/src/analysis/completion.rs:177-207).

Simplifications: those of the model of places. `args_node.find` with the span of the name of an argument is the name; the arguments it is
called with are those the name is in.
-/

namespace Tinymist.Context

open Mode (Kind trivia)
open Pointer

/-- The first child with a property: `cast_first`, `children().find`. -/
def firstIn (P : Tree → Bool) (k : Kind) (up : List Frame) (left : List Tree) : List Tree → Option Place
  | [] => none
  | c :: cs => if P c then some ⟨c, ⟨k, left, cs⟩ :: up⟩ else firstIn P k up (left ++ [c]) cs

/-- The last child with a property: `cast_last`. -/
def lastIn (P : Tree → Bool) (k : Kind) (up : List Frame) (left : List Tree) : List Tree → Option Place
  | [] => none
  | c :: cs =>
    match lastIn P k up (left ++ [c]) cs with
    | some p => some p
    | none => if P c then some ⟨c, ⟨k, left, cs⟩ :: up⟩ else none

def first (P : Tree → Bool) (p : Place) : Option Place :=
  match p.tree with
  | .leaf .. => none
  | .inner k cs => firstIn P k p.up [] cs

def last (P : Tree → Bool) (p : Place) : Option Place :=
  match p.tree with
  | .leaf .. => none
  | .inner k cs => lastIn P k p.up [] cs

def children (p : Place) : List Tree :=
  match p.tree with
  | .leaf .. => []
  | .inner _ cs => cs

/-- `ArgSourceKind` (matcher.rs:1126-1133). -/
inductive Source where
  | call
  | array
  | dict
  deriving DecidableEq, Repr

/-- `ArgClass` (matcher.rs:864-877). -/
inductive Target where
  | named (name : Place)
  | positional (spreads : List Tree) (n : Nat) (isSpread : Bool)

/-- A positional argument of a call or element of an array: `ast::Arg::Pos`, `ast::ArrayItem::Pos`. -/
def isPos (src : Source) (t : Tree) : Bool := src != .dict && isExpr t.kind

/-- `ast::Arg::Spread`, `ast::ArrayItem::Spread`, `ast::DictItem::Spread`. -/
def isSpread (t : Tree) : Bool := t.kind == .spread

/-- The children that end before an offset (matcher.rs:1333-1335). -/
def before (start limit : Nat) : List Tree → List Tree
  | [] => []
  | c :: cs => if start + c.full.length ≤ limit then c :: before (start + c.full.length) limit cs else []

/-- The counting in `arg_context` (matcher.rs:1329-1375). -/
def counted (args node : Place) (src : Source) : Target :=
  let items := before args.offset node.offset (children args)
  .positional (items.filter isSpread) (items.filter (isPos src)).length (node.tree.kind == .spread)

/-- `arg_context` behind the closing parenthesis (matcher.rs:1303-1376). -/
def argOf (args node : Place) (src : Source) : Option Target :=
  if node.tree.kind = .named then (first (fun t => t.kind == .ident) node).map .named
  else if node.tree.kind = .colon then node.prevLeaf.bind fun p => if p.tree.kind = .ident then some (.named p) else none
  else
    match node.parent with
    | none => some (counted args node src)
    | some parent =>
      if parent.tree.kind = .named then
        match last (fun t => isExpr t.kind) parent with
        | none => none
        | some init =>
          if init.offset ≤ node.offset ∧ node.offset < init.offset + init.len then (first (fun t => t.kind == .ident) parent).map .named
          else some (counted args node src)
      else some (counted args node src)

/-- `arg_context` (matcher.rs:1295-1376). -/
def argContext (args node : Place) (src : Source) : Option Target :=
  if node.tree.kind = .rightParen then node.prevSibling.bind fun q => argOf args q src else argOf args node src

/-- `SyntaxContext` (matcher.rs:1050-1090). -/
inductive Ctx where
  | arg (callee args : Place) (target : Target) (isSet : Bool)
  | element (container : Place) (target : Target)
  | paren (container : Place) (isBefore : Bool)
  | access (c : Class)
  | importPath (p : Place)
  | includePath (p : Place)
  | label (p : Place) (isError : Bool)
  | normal (p : Place)

/-- `callee_context` (matcher.rs:1275-1293). -/
def calleeContext (callee node : Place) : Option Ctx :=
  callee.parent.bind fun parent =>
    if parent.tree.kind = .funcCall ∨ parent.tree.kind = .setRule then
      (last (fun t => t.kind == .args) parent).bind fun args =>
        (argContext args node .call).map fun t => .arg callee args t (parent.tree.kind == .setRule)
    else none

/-- The callee of the nearest call or set rule (matcher.rs:1217-1224). -/
def calleeAbove (t : Tree) : List Frame → Option Place
  | [] => if t.kind = .funcCall ∨ t.kind = .setRule then Place.callee ⟨t, []⟩ else none
  | f :: up =>
    match if t.kind = .funcCall ∨ t.kind = .setRule then Place.callee ⟨t, f :: up⟩ else none with
    | some c => some c
    | none => calleeAbove (.inner f.kind (f.left ++ t :: f.right)) up

/-- The parents of named arguments are passed over (matcher.rs:1208-1213). -/
def outOfNamed (t : Tree) : List Frame → Option Place
  | [] => if t.kind = .named ∨ t.kind = .colon then none else some ⟨t, []⟩
  | f :: up =>
    if t.kind = .named ∨ t.kind = .colon then outOfNamed (.inner f.kind (f.left ++ t :: f.right)) up else some ⟨t, f :: up⟩

/-- The kind of the next sibling that is not trivia. -/
def nextKind (p : Place) : Option Kind :=
  match p.up with
  | [] => none
  | f :: _ => (f.right.find? fun t => !trivia t.kind).map Tree.kind

/-- The node that is looked at in the arguments (matcher.rs:1226-1239). -/
def paramNode (p : Place) : Option Place :=
  match p.up with
  | [] => some p
  | f :: _ =>
    if f.kind = .named then
      if p.tree.kind = .ident ∧ nextKind p = some .colon then some p else p.parent
    else some p

/-- `classify_context` behind the class of the node (matcher.rs:1203-1272). -/
def contextIn (p : Place) (c : Class) : Option Ctx :=
  match p.parent with
  | none => some (.normal p)
  | some parent =>
    match outOfNamed parent.tree parent.up with
    | none => some (.normal p)
    | some q =>
      match q.tree.kind with
      | .args => (calleeAbove q.tree q.up).bind fun callee => (paramNode p).bind fun n => calleeContext callee n
      | .array => (argContext q p .array).map (.element q)
      | .dict => (argContext q p .dict).map (.element q)
      | .parenthesized => some (.paren q (decide (p.offset ≤ q.offset + 1)))
      | _ =>
        match c with
        | .ident _ => some (.access c)
        | .fieldAccess _ => some (.access c)
        | .dotAccess _ => some (.access c)
        | c => some (.normal c.node)

/-- `classify_context` behind the trivia (matcher.rs:1186-1272). -/
def contextOf (isIdent : Text → Bool) (p : Place) (cursor : Option Nat) : Option Ctx :=
  (classify isIdent p (cursor.getD p.offset)).bind fun
    | .callee callee => calleeContext callee p
    | .label q e => some (.label q e)
    | .importPath q => some (.importPath q)
    | .includePath q => some (.includePath q)
    | c => contextIn p c

/-- `classify_context` (matcher.rs:1174-1272). -/
def context (isIdent : Text → Bool) (p : Place) (cursor : Option Nat) : Option Ctx :=
  if trivia p.tree.kind && (p.up.head?.map Frame.kind).any inCode then p.prevSibling.bind fun q => contextOf isIdent q cursor
  else contextOf isIdent p cursor

/-- What signature help begins with (signature_help.rs:28-42): the callee, the argument and whether it is a set rule. -/
def forHelp (isIdent : Text → Bool) (root : Tree) (pos : Nat) : Option (Place × Target × Bool) :=
  (leafBefore [] (pos + 1) root).bind fun p =>
    match context isIdent p (some (pos + 1)) with
    | some (.arg callee _ t s) => some (callee, t, s)
    | _ => none

/-- `bad_completion_cursor` (matcher.rs:1386-1408): the cursor is behind the arguments. -/
def badCursor (c : Option Class) (ctx : Option Ctx) (leaf : Place) : Bool :=
  (match c with
    | some (.callee _) =>
      match ctx with
      | some (.arg _ args _ _) => (rightmost args.up args.tree).map Place.offset == some leaf.offset
      | some (.element args _) => (rightmost args.up args.tree).map Place.offset == some leaf.offset
      | some (.paren args _) => (rightmost args.up args.tree).map Place.offset == some leaf.offset
      | _ => false
    | _ => false) ||
  (match c with
    | some (.normal q) => q.tree.kind == .contentBlock && leaf.tree.kind == .rightBracket
    | _ => false)

/-! ## What is around -/

/-- `SurroundingSyntax` (matcher.rs:892-907). -/
inductive Surrounding where
  | regular
  | stringContent
  | selector
  | showTransform
  | setRule
  | importList
  | paramList
  deriving DecidableEq, Repr

/-- A child is not before the first colon of its parent: nothing if there is no colon. -/
def pastColon (f : Frame) (t : Tree) (up : List Frame) : Option Bool :=
  (firstIn (fun c => c.kind == .colon) f.kind up [] (f.left ++ t :: f.right)).map fun c => decide (c.offset ≤ offset (f :: up))

/-- `enclosed_by` the condition of a set rule (matcher.rs:1037-1039): the child is the first expression behind `if`. -/
def inCondition (f : Frame) (t : Tree) : Bool :=
  let behind := f.left.dropWhile fun c => c.kind != .ifKw
  !behind.isEmpty && isExpr t.kind && behind.all fun c => !isExpr c.kind

/-- What one ancestor says (matcher.rs:928-1002): nothing, or what it is. -/
def verdict (met : Bool) (t : Tree) (f : Frame) (up : List Frame) : Option Surrounding :=
  match f.kind with
  | .codeBlock | .contentBlock | .equation | .closure => some .regular
  | .importItemPath | .importItems | .renamedImportItem => some .importList
  | .moduleImport => some (if pastColon f t up = some true then .importList else .regular)
  | .named =>
    some (if pastColon f t up = some false ∧ (t.kind = .params ∨ (f :: up).any (fun g => g.kind == .params) = true) then .paramList else .regular)
  | .params => some .paramList
  | .setRule => some (if met ∨ inCondition f t then .regular else .setRule)
  | .showRule => some (if met then .regular else if pastColon f t up = some true then .showTransform else .selector)
  | _ => none

/-- The loop of `check_surrounding_syntax` (matcher.rs:924-1006). -/
def surroundingFrom (met : Bool) (t : Tree) : List Frame → Option Surrounding
  | [] => none
  | f :: up =>
    match verdict met t f up with
    | some s => some s
    | none => surroundingFrom (met || f.kind == .args) (.inner f.kind (f.left ++ t :: f.right)) up

/-- `check_surrounding_syntax` (matcher.rs:916-1009). -/
def checkSurrounding (p : Place) : Option Surrounding :=
  if p.tree.kind = .str then some .stringContent else surroundingFrom false p.tree p.up

/-- `check_previous_syntax` (matcher.rs:1011-1035). -/
def checkPrevious (p : Place) : Option Surrounding :=
  (if trivia p.tree.kind then p.prevSibling else some p).bind fun q =>
    match q.tree.kind with
    | .showRule | .setRule | .moduleImport | .moduleInclude => (rightmost q.up q.tree).bind checkSurrounding
    | .showKw => some .selector
    | .setKw => some .setRule
    | _ => none

/-- `surrounding_syntax` (matcher.rs:910-914). -/
def surrounding (p : Place) : Surrounding := ((checkPrevious p).or (checkSurrounding p)).getD .regular

/-! ## What is expected of an argument -/

/-- A parameter: its name and whether it is settable. -/
structure Param where
  name : Nat
  settable : Bool
  deriving DecidableEq, Repr

/-- A signature: positional and named parameters and that for the rest (crates/tinymist-analysis/src/sig.rs:72-122). -/
structure Sig where
  pos : List Param
  named : List Param
  rest : Option Param

/-- What is expected: one of the parameters, or the type of a named one. -/
inductive Expected where
  | param (p : Param)
  | typeOf (p : Param)
  deriving DecidableEq, Repr

/-- `SignatureReceiver::insert` (post_tyck.rs:34-43). -/
def receive (l : List Expected) (e : Expected) : List Expected := if e ∈ l then l else l ++ [e]

/-- The arm for arguments of `check_cursor` (crates/tinymist-query/src/analysis/post_tyck.rs:217-267): what is expected of the argument at
the cursor; `shift` arguments are given by `with`. -/
def expected (nameOf : Place → Nat) (sig : Sig) (shift : Nat) (target : Target) (isSet : Bool) : Option (List Expected) :=
  match target with
  | .named p => (sig.named.find? fun q => q.name == nameOf p).map fun q => [.typeOf q]
  | .positional _ n isSpread =>
    if isSpread then none
    else
      let first := match sig.pos[shift + n]?.or sig.rest with
        | some p => receive [] (.param p)
        | none => []
      some ((sig.named.filter fun p => !isSet || p.settable).foldl (fun l p => receive l (.param p)) first)

end Tinymist.Context
