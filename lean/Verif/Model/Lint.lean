/-!
# The linter

Models `crates/tinymist-lint/src/lib.rs`: warnings about jumps outside of loops and functions (`Linter::loop_break`,
`loop_continue`, `func_return`), about rules in blocks that have nothing else (`buggy_block`) and about values that a `return`
throws away (`LateFuncLinter`). Not modelled: comparisons of types with strings and names of variable fonts, and the texts of
messages and hints.

Expressions are those of typst (`ast::Expr`), each node with a number for its span where a warning may point to it. The children
of argument lists, arrays and dictionaries are those that are expressions (`SyntaxNode::cast`): not named and spread ones. An
optional part is a list of at most one expression. The parameters of a closure are names and patterns, of which only plain names
are expressions; nothing is done with names, so parameters are left out.
-/
namespace Tinymist.Lint

/-- The kinds of expressions without parts: `none`, spaces and paragraph breaks, others. -/
inductive Lit where
  | none | trivia | value
  deriving DecidableEq, Repr

/-- `ast::Expr`, grouped by what the visitors do with them (lib.rs:664-740). -/
inductive Expr where
  /-- Text, spaces, numbers, strings, labels and so on. -/
  | lit (kind : Lit) (id : Nat)
  /-- Identifiers, in code and math, and imports. -/
  | name
  | paren (e : Expr)
  /-- Code and content blocks. -/
  | block (es : List Expr)
  /-- Strong, emphasis, headings, items, terms, math and its parts. -/
  | seq (es : List Expr)
  /-- Equations, arrays and dictionaries. -/
  | coll (id : Nat) (es : List Expr)
  | include (id : Nat)
  | unary (e : Expr)
  | binary (l r : Expr)
  | field (e : Expr)
  | call (callee : Expr) (args : List Expr)
  | closure (id : Nat) (body : Expr)
  | letIn (init : List Expr)
  | destruct (e : Expr)
  | set (id : Nat) (cond args : List Expr) (target : Expr)
  | show (id : Nat) (selector : List Expr) (transform : Expr)
  | contextual (id : Nat) (body : Expr)
  | cond (c t : Expr) (els : List Expr)
  | while (id : Nat) (c body : Expr)
  | for (id : Nat) (iterable body : Expr)
  | break (id : Nat)
  | continue (id : Nat)
  | ret (id : Nat) (value : List Expr)

inductive Diag where
  /-- A jump outside of a loop, with the trace: the loop and the function between it and the jump, lib.rs:116-141. -/
  | badJump (id : Nat) (trace : Option (Nat × Nat))
  /-- A `return` outside of a function, lib.rs:366-371. -/
  | badReturn (id : Nat)
  /-- A rule without effect, lib.rs:148-168; `hint` says whether there is one. -/
  | noEffect (id : Nat) (hint : Bool)
  /-- Discarded by a return, lib.rs:587-620; `rule` for set and show rules. -/
  | discarded (id : Nat) (rule : Bool)
  deriving DecidableEq, Repr

/-! ## Values before a return: `LateFuncLinter` -/

/-- `ReturnBlockInfo`, lib.rs:641-656. -/
structure Info where
  value : Bool
  none : Bool
  warned : Bool
  deriving DecidableEq, Repr

/-- `ReturnBlockInfo::merge`. -/
def Info.merge (a b : Info) : Info := ⟨a.value && b.value, a.none && b.none, a.warned && b.warned⟩

/-- `ExprContext`, lib.rs:1007-1012. -/
inductive Ctx where
  | blockExpr | block | expr
  deriving DecidableEq, Repr

/-- The state of `LateFuncLinter`, lib.rs:395-400. -/
structure Late where
  info : Option Info
  ctx : Ctx
  diag : List Diag
  deriving DecidableEq, Repr

/-- `expr_ctx`, lib.rs:418-430: the context inside. -/
def inner (ctx current : Ctx) : Ctx :=
  match ctx with
  | .block => if current = .block then .block else .blockExpr
  | c => c

/-- `join`, lib.rs:432-448: what comes from the first branch joined with what there is. -/
def join (parent info : Option Info) : Option Info :=
  match parent with
  | none => info
  | some p =>
    match info with
    | some i => if i.value = p.value then some i else some (p.merge i)
    | none => some p

/-- `value`, lib.rs:572-621, of an expression that is `skip` if it is `none` or a space, `rule` if it is a set or show rule. -/
def value (id : Nat) (skip rule : Bool) (s : Late) : Late :=
  if s.ctx = .block then
    match s.info with
    | none => s
    | some ri =>
      if ri.warned || skip then s
      else if ri.value then { s with info := some { ri with warned := true }, diag := s.diag ++ [.discarded id rule] }
      else if ri.none && rule then { s with info := some { ri with warned := true }, diag := s.diag ++ [.discarded id rule] }
      else s
  else s

mutual
/-- `DataFlowVisitor::expr` of `LateFuncLinter`, lib.rs:451-638, 663-740. -/
def late : Expr → Late → Late
  | .lit k id, s => value id (decide (k ≠ .value)) false s
  | .name, s => s
  | .paren e, s => late e s
  | .block es, s => { lates es { s with ctx := inner .block s.ctx } with ctx := s.ctx }
  | .seq es, s => lates es s
  | .coll id _, s => value id false false s
  | .include id, s => value id false false s
  | .unary e, s => { late e { s with ctx := .expr } with ctx := s.ctx }
  | .binary l r, s => { late l (late r { s with ctx := .expr }) with ctx := s.ctx }
  | .field _, s => s
  | .call _ _, s => s
  | .closure _ _, s => s
  | .letIn _, s => s
  | .destruct _, s => s
  | .set id _ _ _, s => value id false true s
  | .show id _ _, s => value id false true s
  | .contextual _ _, s => s
  | .cond _ t els, s =>
    let s1 := late t s
    let s2 := lates els { s1 with info := s.info }
    { s2 with info := join s1.info s2.info }
  | .while _ _ body, s => late body s
  | .for _ _ body, s => late body s
  | .break _, s => { s with info := some ⟨false, false, false⟩ }
  | .continue _, s => { s with info := some ⟨false, false, false⟩ }
  | .ret _ v, s => { s with info := some (if v.isEmpty then ⟨false, true, false⟩ else ⟨true, false, false⟩) }
/-- `exprs`, lib.rs:451-456: from the last to the first. -/
def lates : List Expr → Late → Late
  | [], s => s
  | e :: es, s => late e (lates es s)
end

/-! ## The main pass: `Linter` -/

/-- `FuncInfo`, lib.rs:847-853; `is_contextual` and `has_return_value` are not read. -/
structure Fn where
  id : Nat
  hasReturn : Bool
  parentLoop : Option Nat
  deriving DecidableEq, Repr

/-- The state of `Linter`, lib.rs:43-49; of the loop only the span is read. `panicked` if an `expect` fails. -/
structure St where
  diag : List Diag
  loop : Option Nat
  fn : Option Fn
  panicked : Bool
  deriving DecidableEq, Repr

/-- The trace of a jump, lib.rs:118-136: the loop around the function and the function. -/
def trace : Option Fn → Option (Nat × Nat)
  | some f => f.parentLoop.map fun l => (l, f.id)
  | none => none

/-- `bad_branch_stmt`, lib.rs:116-141. -/
def badBranch (id : Nat) (s : St) : St := { s with diag := s.diag ++ [.badJump id (trace s.fn)] }

/-- The expressions of a block, `Block::from` and `iter`, lib.rs:862-880. -/
def blockOf : Expr → Option (List Expr)
  | .block es => some es
  | _ => none

def isRule : Expr → Bool
  | .set .. => true
  | .show .. => true
  | _ => false

/-- Are these trivia (`SyntaxKind::is_trivia`). -/
def isTrivia : Expr → Bool
  | .lit .trivia _ => true
  | _ => false

def isJump : Expr → Bool
  | .break _ => true
  | .continue _ => true
  | _ => false

/-- `only_show`, lib.rs:171-185. -/
def onlyShow : Bool → List Expr → Bool
  | has, [] => has
  | has, e :: es => if isRule e then onlyShow true es else if isJump e then has else if isTrivia e then onlyShow has es else false

/-- The warnings about the rules of a block, lib.rs:150-165. -/
def ruleWarnings : Bool → List Expr → List Diag
  | _, [] => []
  | first, .set id .. :: es => .noEffect id first :: ruleWarnings false es
  | first, .show id .. :: es => .noEffect id first :: ruleWarnings false es
  | first, _ :: es => ruleWarnings first es

/-- `buggy_block_expr`, lib.rs:143-169. -/
def buggyBlock (e : Expr) (s : St) : St :=
  match blockOf e with
  | none => s
  | some es => if onlyShow false es then { s with diag := s.diag ++ ruleWarnings true es } else s

/-- `late_func_return` of a body, lib.rs:103-114, 402-415: only if the function has a return. -/
def lateReturn (body : Expr) (s : St) : St :=
  match s.fn with
  | none => { s with panicked := true }
  | some f => if f.hasReturn then { s with diag := (late body ⟨none, .block, s.diag⟩).diag } else s

/-- The end of `with_func_info`, lib.rs:97-101. -/
def leaveFn (old : Option Fn) (s : St) : St :=
  match s.fn with
  | none => { s with panicked := true }
  | some f => { s with loop := f.parentLoop, fn := old }

/-- `return`, lib.rs:361-373. -/
def funcReturn (id : Nat) (s : St) : St :=
  match s.fn with
  | some f => { s with fn := some { f with hasReturn := true } }
  | none => { s with diag := s.diag ++ [.badReturn id] }

mutual
/-- `DataFlowVisitor::expr` of `Linter`, lib.rs:257-391, 663-845. -/
def expr : Expr → St → St
  | .lit _ _, s => s
  | .name, s => s
  | .paren e, s => expr e s
  | .block es, s => exprs es s
  | .seq es, s => exprs es s
  | .coll _ es, s => exprs es s
  | .include _, s => s
  | .unary e, s => expr e s
  | .binary l r, s => expr r (expr l s)
  | .field e, s => expr e s
  | .call _ _, s => s
  | .closure id body, s =>
    let s1 := expr body { s with fn := some ⟨id, false, s.loop⟩, loop := none }
    leaveFn s.fn (lateReturn body s1)
  | .letIn init, s => exprs init s
  | .destruct e, s => expr e s
  | .set _ cond args target, s => expr target (exprs args (exprs cond s))
  | .show _ sel transform, s => expr transform (buggyBlock transform (exprs sel s))
  | .contextual id body, s =>
    let s1 := expr body { s with fn := some ⟨id, false, s.loop⟩, loop := none }
    leaveFn s.fn (lateReturn body s1)
  | .cond c t els, s =>
    let s1 := expr t (buggyBlock t (expr c s))
    elses els s1
  | .while id c body, s =>
    let s1 := expr body (buggyBlock body (expr c { s with loop := some id }))
    { s1 with loop := s.loop }
  | .for id iterable body, s =>
    let s1 := expr body (buggyBlock body (expr iterable { s with loop := some id }))
    { s1 with loop := s.loop }
  | .break id, s => if s.loop.isSome then s else badBranch id s
  | .continue id, s => if s.loop.isSome then s else badBranch id s
  | .ret id _, s => funcReturn id s
def exprs : List Expr → St → St
  | [], s => s
  | e :: es, s => exprs es (expr e s)
/-- The branch behind `else`, lib.rs:303-306. -/
def elses : List Expr → St → St
  | [], s => s
  | e :: es, s => elses es (expr e (buggyBlock e s))
end

/-- `Linter::lint` of a file, lib.rs:66-74. -/
def run (file : List Expr) : St := exprs file ⟨[], none, none, false⟩

/-- `lint_file`, lib.rs:34-41. -/
def lint (file : List Expr) : List Diag := (run file).diag

end Tinymist.Lint
