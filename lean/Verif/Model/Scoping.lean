/-!
# Which definition a name refers to

Models `crates/tinymist-query/src/syntax/expr.rs` (`ExprWorker`), the scopes of
`crates/tinymist-analysis/src/syntax/def.rs` and `DefResolver` of
`crates/tinymist-query/src/analysis/definition.rs`.  Go to definition, find references and
rename are all answered from the table built here.

Simplifications:
* names are numbers, and `0` is the empty name (`Interned::empty()`, def.rs 762-765);
* a span is a number; a span of typst is a file id together with a number, so that spans of
  different files differ;
* patterns are the list of the identifiers they bind, in order (expr.rs 481-529), without
  field accesses and nested named patterns;
* only the second pass of `expr_of` (expr.rs 111-116) is modelled: the first one only
  matters for cyclic imports;
* values found by running the document (`analyze_expr`, `analyze_import`) are not modelled:
  an import source they are needed for is unknown.
-/
namespace Tinymist.Scoping

abbrev Span := Nat
abbrev Name := Nat
abbrev File := Nat
/-- a value of the standard library -/
abbrev Val := Nat

/-- The declarations which scopes hold (def.rs 345-369): `Decl::Var`, `Decl::Func`,
`Decl::Closure`, `Decl::Spread`, `Decl::Module`. -/
inductive Decl where
  | var (s : Span) (n : Name)
  | func (s : Span) (n : Name)
  | closure (s : Span)
  | spread (s : Span)
  | module (f : File)
  deriving DecidableEq, Repr

/-- `RefExpr::root`: a declaration, or an expression which is none (`Expr::Select`,
`Expr::Type`). -/
inductive Target where
  | decl (d : Decl)
  | other
  deriving DecidableEq, Repr

/-- `RefExpr` (def.rs 996-1010) without `step`.  `site` is the declaration standing at the
place itself (`Decl::as_def`, def.rs 561-569) and `none` where the place only refers
(`IdentRef`, `Import`, `ImportAlias`, `ModuleAlias`, `PathStem`, `ImportPath`,
`ModuleImport`). -/
structure RefExpr where
  site : Option Decl
  root : Option Target
  term : Option Val
  deriving DecidableEq, Repr

/-- The expressions held by a lexical scope. -/
inductive Expr where
  | decl (d : Decl)
  | ref (r : RefExpr)
  | other
  deriving DecidableEq, Repr

/-- `LexicalScope` (def.rs 211): a map. -/
abbrev LexicalScope := List (Name × Expr)

/-- `insert_mut`. -/
def insert (n : Name) (e : Expr) (s : LexicalScope) : LexicalScope :=
  (n, e) :: s.filter (fun x => x.1 != n)

/-- `ExprScope` (def.rs 213-219): a lexical scope, or the scope of a builtin module,
function or type. -/
inductive Scope where
  | lexical (s : LexicalScope)
  | builtin (v : Val)
  deriving DecidableEq, Repr

/-- What the code asks of the outside: the library's global and math scopes, the scope of a
value (`Value::scope`), and the stem of a file's path (`Decl::calc_path_stem`). -/
structure World where
  lib : Bool → Name → Option Val
  sub : Val → Option (List (Name × Val))
  stem : File → Name

/-- `ExprScope::is_empty` (def.rs 226-233). -/
def Scope.isEmpty (W : World) : Scope → Bool
  | .lexical s => s.isEmpty
  | .builtin v => ((W.sub v).getD []).isEmpty

/-- `ExprScope::get` (def.rs 235-260). -/
def Scope.get (W : World) (n : Name) : Scope → Option Expr × Option Val
  | .lexical s => (s.lookup n, none)
  | .builtin v => (none, ((W.sub v).getD []).lookup n)

/-- `ExprScope::merge_into` (def.rs 262-293).  The map's iteration order does not matter. -/
def Scope.mergeInto (W : World) (exports : LexicalScope) : Scope → LexicalScope
  | .lexical s => s.foldr (fun x acc => insert x.1 x.2 acc) exports
  | .builtin v => ((W.sub v).getD []).foldr (fun x acc => insert x.1 .other acc) exports

/-- `LexicalContext` (expr.rs 143-148); the interpretation mode is not needed. -/
structure Lex where
  scopes : List Scope
  last : Scope
  deriving DecidableEq, Repr

/-- `ExprWorker`: the lexical context and the buffer of resolved places. -/
structure St where
  lex : Lex
  buf : List (Span × RefExpr)
  deriving DecidableEq, Repr

/-- `with_scope` (expr.rs 178-188). -/
def withScope (f : St → St) (st : St) : St :=
  let st' := f { st with lex := ⟨st.lex.scopes ++ [st.lex.last], .lexical []⟩ }
  let scopes := st'.lex.scopes.take (st.lex.scopes.length + 1)
  { st' with lex := ⟨scopes.dropLast, scopes.getLast?.getD (.lexical [])⟩ }

/-- `push_scope` (expr.rs 190-195). -/
def pushScope (W : World) (scope : Scope) (st : St) : St :=
  { st with lex :=
    ⟨if st.lex.last.isEmpty W then st.lex.scopes else st.lex.scopes ++ [st.lex.last], scope⟩ }

/-- `scope_mut().insert_mut(name, expr)` (expr.rs 197-207). -/
def define (n : Name) (e : Expr) (st : St) : St :=
  match st.lex.last with
  | .lexical s => { st with lex := ⟨st.lex.scopes, .lexical (insert n e s)⟩ }
  | .builtin v => { st with lex := ⟨st.lex.scopes ++ [.builtin v], .lexical (insert n e [])⟩ }

/-- `resolve_as_` (expr.rs 1033-1036). -/
def resolveAs (s : Span) (r : RefExpr) (st : St) : St :=
  { st with buf := st.buf ++ [(s, r)] }

/-- `Decl::as_def` (def.rs 561-569). -/
def asDef (d : Decl) : RefExpr := ⟨some d, some (.decl d), none⟩

/-- The loop over scopes of `eval_ident` (expr.rs 1103-1114). -/
def getFirst (W : World) (n : Name) : List Scope → Option Expr × Option Val
  | [] => (none, none)
  | s :: rest =>
    let r := s.get W n
    if r.1.isSome || r.2.isSome then r else getFirst W n rest

/-- `eval_ident` (expr.rs 1103-1137); `lib` includes the name `std`. -/
def evalIdent (W : World) (lex : Lex) (n : Name) (math : Bool) : Option Expr × Option Val :=
  let r := getFirst W n (lex.last :: lex.scopes.reverse)
  if r.1.isSome || r.2.isSome then r else (none, W.lib math n)

/-- `extract_ref` (expr.rs 1215-1220), the root. -/
def extractRoot : Option Expr → Option Target
  | some (.ref r) => r.root
  | some (.decl d) => some (.decl d)
  | some .other => some .other
  | none => none

/-- `resolve_ident` (expr.rs 1038-1055). -/
def resolveIdent (W : World) (s : Span) (n : Name) (math : Bool) (st : St) : St :=
  let r := evalIdent W st.lex n math
  resolveAs s ⟨none, extractRoot r.1, r.2⟩ st

/-- The identifiers bound by a pattern, in order. -/
abbrev Pat := List (Span × Name)

/-- An import item: the path of identifiers and the new name. -/
structure Item where
  path : Pat
  rename : Option (Span × Name)
  deriving DecidableEq, Repr

inductive Src where
  /-- a string leading to a file -/
  | path (s : Span) (f : File)
  | ident (s : Span) (n : Name)
  deriving DecidableEq, Repr

inductive What where
  | bare
  | star
  | items (l : List Item)
  deriving DecidableEq, Repr

structure Import where
  stmt : Span
  src : Src
  alias : Option (Span × Name)
  what : What
  deriving DecidableEq, Repr

mutual
/-- The syntax of a document, as far as names are concerned. -/
inductive E where
  /-- literals and text -/
  | skip
  /-- an identifier, in code or in math -/
  | ident (s : Span) (n : Name) (math : Bool)
  /-- children checked one after the other in the same scope: markup, strong and emphasised
  text, equations, arrays, dictionaries, arguments, calls, operators, field accesses, set
  rules, conditions and bodies of `if` and `while`, show rules (expr.rs 820-975) -/
  | seq (a b : E)
  /-- a code block or a content block -/
  | block (b : E)
  /-- the body of a heading, a list item, an enum item or a term item -/
  | item (b : E)
  /-- a `let` with a pattern -/
  | letPat (p : Pat) (init : E)
  /-- a function: named in `let f(..) = ..`, unnamed in `(..) => ..` -/
  | closure (s : Span) (name : Option Name) (ps : Ps) (body : E)
  /-- `(a, b) = value` -/
  | destruct (p : Pat) (v : E)
  | forIn (p : Pat) (iter body : E)
  /-- `context body` -/
  | ctx (b : E)
  | imp (i : Import)

/-- Parameters of a function. -/
inductive Ps where
  | nil
  | pos (p : Pat) (rest : Ps)
  | named (s : Span) (n : Name) (default : E) (rest : Ps)
  /-- `..args` -/
  | sink (s : Span) (n : Name) (rest : Ps)
  /-- `..` -/
  | noSink (s : Span) (rest : Ps)
end

/-- `check_pattern` (expr.rs 481-543): each identifier becomes a variable. -/
def checkPat : Pat → St → St
  | [], st => st
  | (s, n) :: rest, st =>
    checkPat rest (define n (.decl (.var s n)) (resolveAs s (asDef (.var s n)) st))

/-- `import_decls` (expr.rs 764-818): the last name of the path is looked up in the scope
of the module. -/
def importItem (W : World) (scope : Scope) (it : Item) (st : St) : St :=
  match it.path.getLast? with
  | none => st
  | some (s, n) =>
    let r := scope.get W n
    let root := if r.1.isNone && r.2.isNone then some Target.other else extractRoot r.1
    let ref : RefExpr := ⟨none, root, r.2⟩
    let st := resolveAs s ref st
    match it.rename with
    | none => define n (.ref ref) st
    | some (s', n') => define n' (.ref ref) (resolveAs s' ref st)

def importItems (W : World) (scope : Scope) : List Item → St → St
  | [], st => st
  | it :: rest, st => importItems W scope rest (importItem W scope it st)

/-- What an import source is found to be. -/
inductive Mod where
  | file (f : File)
  | value (v : Val)
  deriving DecidableEq, Repr

/-- A value that can be imported from (expr.rs 689-705). -/
def modOfVal (W : World) (v : Val) : Option Mod :=
  if (W.sub v).isSome then some (.value v) else none

def modOfTarget : Target → Option Mod
  | .decl (.module f) => some (.file f)
  | _ => none

/-- `check_import` for an identifier: `eval_expr`, `fold_expr_and_val` and `fold_expr`
(expr.rs 633-663, 1074-1101, 1139-1168). -/
def modOfIdent (W : World) (r : Option Expr × Option Val) : Option Mod :=
  match r with
  | (none, some v) => modOfVal W v
  | (some (.decl d), _) => modOfTarget (.decl d)
  | (some (.ref ⟨_, none, some v⟩), _) => modOfVal W v
  | (some (.ref ⟨_, some t, _⟩), _) => modOfTarget t
  | _ => none

/-- `check_import` (expr.rs 633-663, 707-733): what is imported, and the state after it.
A path is recorded as a reference to the file; an identifier is not recorded. -/
def checkSource (W : World) (src : Src) (st : St) : Option Mod × St :=
  match src with
  | .path s f => (some (.file f), resolveAs s ⟨none, some (.decl (.module f)), none⟩ st)
  | .ident _ n => (modOfIdent W (evalIdent W st.lex n false), st)

def Mod.target : Mod → Target
  | .file f => .decl (.module f)
  | .value _ => .other

/-- The scope imported from (expr.rs 588-617). -/
def modScope (exports : File → LexicalScope) : Option Mod → Scope
  | some (.file f) => .lexical (exports f)
  | some (.value v) => .builtin v
  | none => .lexical []

def Src.span : Src → Span
  | .path s _ => s
  | .ident s _ => s

/-- The variable of the module: `mod_var` (expr.rs 550-566). -/
def modVar (W : World) (i : Import) (m : Option Mod) : Option (Span × Name) :=
  match i.alias with
  | some a => some a
  | none =>
    match i.what, m with
    | .bare, some (.file f) => some (i.src.span, W.stem f)
    | _, _ => none

/-- The reference to the module is recorded, and bound if it has a variable
(expr.rs 567-581). -/
def bindMod (stmt : Span) (ref : RefExpr) (st : St) : Option (Span × Name) → St
  | some (s, n) => resolveAs s ref (define n (.ref ref) st)
  | none => resolveAs stmt ref st

/-- `check_module_import` (expr.rs 545-631). -/
def checkImport (W : World) (exports : File → LexicalScope) (i : Import) (st : St) : St :=
  let (m, st) := checkSource W i.src st
  let ref : RefExpr := ⟨none, m.map Mod.target, none⟩
  let st := bindMod i.stmt ref st (modVar W i m)
  match i.what with
  | .bare => st
  | .star => pushScope W (modScope exports m) st
  | .items l => importItems W (modScope exports m) l st

/-- The declaration of a function (expr.rs 414-417). -/
def funDecl (s : Span) : Option Name → Decl
  | some n => .func s n
  | none => .closure s

def funName : Option Name → Name
  | some n => n
  | none => 0

mutual
/-- `check` (expr.rs 240-389). -/
def check (W : World) (exports : File → LexicalScope) : E → St → St
  | .skip, st => st
  | .ident s n math, st => resolveIdent W s n math st
  | .seq a b, st => check W exports b (check W exports a st)
  | .block b, st => withScope (check W exports b) st
  | .item b, st => withScope (check W exports b) st
  | .letPat p init, st => checkPat p (check W exports init st)
  | .closure s name ps body, st =>
    let d := funDecl s name
    let st := resolveAs s (asDef d) st
    let st := withScope (fun st =>
      check W exports body (checkParams W exports ps (define (funName name) (.decl d) st))) st
    define (funName name) (.decl d) st
  | .destruct p v, st => check W exports v (checkPat p st)
  | .forIn p iter body, st =>
    withScope (fun st => check W exports body (check W exports iter (checkPat p st))) st
  | .ctx b, st => check W exports b st
  | .imp i, st => checkImport W exports i st

/-- The parameters in `check_closure` (expr.rs 427-462). -/
def checkParams (W : World) (exports : File → LexicalScope) : Ps → St → St
  | .nil, st => st
  | .pos p rest, st => checkParams W exports rest (checkPat p st)
  | .named s n dflt rest, st =>
    let st := check W exports dflt st
    checkParams W exports rest
      (define n (.decl (.var s n)) (resolveAs s (asDef (.var s n)) st))
  | .sink s n rest, st =>
    let st := resolveIdent W s n false st
    checkParams W exports rest
      (define n (.decl (.var s n)) (resolveAs s (asDef (.var s n)) st))
  | .noSink s rest, st =>
    checkParams W exports rest
      (define 0 (.decl (.spread s)) (resolveAs s (asDef (.spread s)) st))
end

/-- `LexicalContext::default` (expr.rs 150-158). -/
def St.init : St := ⟨⟨[], .lexical []⟩, []⟩

/-- `summarize_scope` (expr.rs 230-236). -/
def summarize (W : World) (lex : Lex) : LexicalScope :=
  (lex.last :: lex.scopes).foldl (fun acc s => s.mergeInto W acc) []

/-- The exports of the files of a project, given in an order in which a file imports only
files before it; `exports_of` (expr.rs 1201-1212) of any other file gives nothing. -/
def exportsOf (done : List LexicalScope) (f : File) : LexicalScope := done.getD f []

def exportsAll (W : World) (files : List E) : List LexicalScope :=
  files.foldl (fun done e =>
    done ++ [summarize W (check W (exportsOf done) e St.init).lex]) []

/-- `expr_of` (expr.rs 31-136) of the `k`th file: the table of resolved places. -/
def tableOf (W : World) (files : List E) (k : Nat) : List (Span × RefExpr) :=
  match files[k]? with
  | none => []
  | some e => (check W (exportsOf (exportsAll W (files.take k))) e St.init).buf

/-- `HashMap::from_iter` and `get`: the last entry of a span counts. -/
def lookupLast {α : Type} (s : Span) : List (Span × α) → Option α
  | [] => none
  | (s', a) :: rest =>
    match lookupLast s rest with
    | some b => some b
    | none => if s' = s then some a else none

/-- An answer to go to definition. -/
inductive Ans where
  | decl (d : Decl)
  | value (v : Val)
  deriving DecidableEq, Repr

/-- `DefResolver::of_span`, `of_expr` (definition.rs 327-352): what a resolved place leads
to.  A root is never an import declaration, for scopes hold none. -/
def ofRef (r : RefExpr) : Option Ans :=
  match r.root, r.term with
  | some (.decl d), _ => some (.decl d)
  | some .other, _ => none
  | none, some v => some (.value v)
  | none, none => none

/-- Go to definition at span `s` of the `k`th file (definition.rs 121-138, 327-339). -/
def definition (W : World) (files : List E) (k : Nat) (s : Span) : Option Ans :=
  match lookupLast s (tableOf W files k) with
  | none => none
  | some r => ofRef r

end Tinymist.Scoping
