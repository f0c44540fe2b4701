import Verif.Model.Scoping

/-!
# The scoping rules of Typst

A document is read from the beginning to the end with an environment saying what each name
means.  `uses` lists every place of a document where a name is written, with what the name
means there.
-/
namespace Tinymist.Scoping

/-- What a name can mean: a definition in a file, a module, a library value, or something
which cannot be known without running the document. -/
inductive Meaning where
  | decl (d : Decl)
  | value (v : Val)
  | unknown
  deriving DecidableEq, Repr

abbrev Env := Name → Option Meaning

def Env.bind (env : Env) (n : Name) (m : Meaning) : Env :=
  fun x => if x = n then some m else env x

/-- Every identifier of a pattern is a new variable. -/
def Env.bindPat : Env → Pat → Env
  | env, [] => env
  | env, (s, n) :: rest => Env.bindPat (env.bind n (.decl (.var s n))) rest

/-- A name means what the innermost, latest binding says, and else what the library says. -/
def Env.look (W : World) (env : Env) (n : Name) (math : Bool) : Option Meaning :=
  match env n with
  | some m => some m
  | none => (W.lib math n).map .value

/-- The members of something imported from. -/
def members (W : World) (exports : File → Env) : Option Meaning → Env
  | some (.decl (.module f)) => exports f
  | some (.value v) => fun n => (((W.sub v).getD []).lookup n).map .value
  | _ => fun _ => none

/-- The member a path of names leads to. -/
def memberAt (W : World) (exports : File → Env) : Env → List Name → Option Meaning
  | _, [] => none
  | env, [n] => env n
  | env, n :: rest => memberAt W exports (members W exports (env n)) rest

/-- The member an import item names; what is not exported is unknown. -/
def itemMeaning (W : World) (exports : File → Env) (scope : Env) (it : Item) : Meaning :=
  (memberAt W exports scope (it.path.map (·.2))).getD .unknown

/-- The last name of the path, with its place. -/
def Item.last (it : Item) : Option (Span × Name) := it.path.getLast?

/-- The name an item binds. -/
def bindItem (env : Env) (it : Item) (m : Meaning) : Env :=
  match it.rename, it.last with
  | some a, _ => env.bind a.2 m
  | none, some a => env.bind a.2 m
  | none, none => env

/-- `import ..: a, b as c`: each name, or the new name, means the member. -/
def usesItems (W : World) (exports : File → Env) (scope : Env) :
    List Item → Env → List (Span × Option Meaning) × Env
  | [], env => ([], env)
  | it :: rest, env =>
    let m := itemMeaning W exports scope it
    let here := (it.last.toList.map (fun x => (x.1, some m))) ++
      (it.rename.toList.map (fun x => (x.1, some m)))
    let r := usesItems W exports scope rest (bindItem env it m)
    (here ++ r.1, r.2)

/-- What an import is from. -/
def srcMeaning (W : World) (env : Env) : Src → Option Meaning
  | .path _ f => some (.decl (.module f))
  | .ident _ n => env.look W n false

/-- The name an import without items gives to the module: the alias, or the stem of the
file. -/
def modName (W : World) (i : Import) : Option Meaning → Option (Span × Name)
  | m => match i.alias with
    | some a => some a
    | none =>
      match i.what, m with
      | .bare, some (.decl (.module f)) => some (i.src.span, W.stem f)
      | _, _ => none

/-- Bind the name, if there is one. -/
def bindName (env : Env) (m : Meaning) : Option Name → Env
  | some n => env.bind n m
  | none => env

def usesImport (W : World) (exports : File → Env) (i : Import) (env : Env) :
    List (Span × Option Meaning) × Env :=
  let m := srcMeaning W env i.src
  let here := [(i.src.span, m)] ++
    [(((modName W i m).map (·.1)).getD i.stmt, m)]
  let env1 := bindName env (m.getD .unknown) ((modName W i m).map (·.2))
  match i.what with
  | .bare => (here, env1)
  | .star =>
    (here, fun n => match members W exports m n with
      | some x => some x
      | none => env1 n)
  | .items l =>
    let r := usesItems W exports (members W exports m) l env1
    (here ++ r.1, r.2)

/-- A function is a definition. -/
def functionDef (s : Span) : Option Name → Decl
  | some n => .func s n
  | none => .closure s

mutual
/-- The places where names are written, what they mean there, and the environment after. -/
def uses (W : World) (exports : File → Env) : E → Env → List (Span × Option Meaning) × Env
  | .skip, env => ([], env)
  | .ident s n math, env => ([(s, env.look W n math)], env)
  | .seq a b, env =>
    let r := uses W exports a env
    let r' := uses W exports b r.2
    (r.1 ++ r'.1, r'.2)
  -- what is bound in a block ends with it
  | .block b, env => ((uses W exports b env).1, env)
  -- headings and items are no blocks
  | .item b, env => uses W exports b env
  -- the value is computed before the names are bound
  | .letPat p init, env =>
    let r := uses W exports init env
    (r.1 ++ p.map (fun x => (x.1, some (.decl (.var x.1 x.2)))), r.2.bindPat p)
  -- a function knows itself and its parameters; defaults are computed outside of it
  | .closure s name ps body, env =>
    let d := functionDef s name
    let inner := bindName env (.decl d) name
    let r := usesParams W exports env ps inner
    ((s, some (.decl d)) :: (r.1 ++ (uses W exports body r.2).1), inner)
  -- an assignment uses the variables
  | .destruct p v, env =>
    let r := uses W exports v env
    (r.1 ++ p.map (fun x => (x.1, r.2.look W x.2 false)), r.2)
  -- the iterable is computed before the loop variables are bound
  | .forIn p iter body, env =>
    let r := uses W exports iter env
    (p.map (fun x => (x.1, some (.decl (.var x.1 x.2)))) ++
      (r.1 ++ (uses W exports body (r.2.bindPat p)).1), r.2)
  -- the body runs later, as a function of its own
  | .ctx b, env => ((uses W exports b env).1, env)
  | .imp i, env => usesImport W exports i env

/-- Parameters: `outer` is the environment the function is defined in. -/
def usesParams (W : World) (exports : File → Env) (outer : Env) :
    Ps → Env → List (Span × Option Meaning) × Env
  | .nil, env => ([], env)
  | .pos p rest, env =>
    let r := usesParams W exports outer rest (env.bindPat p)
    (p.map (fun x => (x.1, some (.decl (.var x.1 x.2)))) ++ r.1, r.2)
  | .named s n dflt rest, env =>
    let r := usesParams W exports outer rest (env.bind n (.decl (.var s n)))
    ((uses W exports dflt outer).1 ++ ((s, some (.decl (.var s n))) :: r.1), r.2)
  | .sink s n rest, env =>
    let r := usesParams W exports outer rest (env.bind n (.decl (.var s n)))
    ((s, some (.decl (.var s n))) :: r.1, r.2)
  | .noSink s rest, env =>
    let r := usesParams W exports outer rest env
    ((s, some (.decl (.spread s))) :: r.1, r.2)
end

def Env.empty : Env := fun _ => none

/-- A file exports what is bound at its end. -/
def exportEnv (done : List Env) (f : File) : Env := done.getD f Env.empty

def exportEnvs (W : World) (files : List E) : List Env :=
  files.foldl (fun done e => done ++ [(uses W (exportEnv done) e Env.empty).2]) []

/-- The places of the `k`th file where names are written, with their meaning. -/
def placesOf (W : World) (files : List E) (k : Nat) : List (Span × Option Meaning) :=
  match files[k]? with
  | none => []
  | some e => (uses W (exportEnv (exportEnvs W (files.take k))) e Env.empty).1

/-- The answer an editor should give for a meaning. -/
def Meaning.answer : Meaning → Option Ans
  | .decl d => some (.decl d)
  | .value v => some (.value v)
  | .unknown => none

/-! ## The documents for which the code follows the rules -/

mutual
/-- The names looked up in an expression. -/
def mentions : E → List Name
  | .skip => []
  | .ident _ n _ => [n]
  | .seq a b => mentions a ++ mentions b
  | .block b => mentions b
  | .item b => mentions b
  | .letPat _ init => mentions init
  | .closure _ _ ps body => mentionsParams ps ++ mentions body
  | .destruct p v => p.map (·.2) ++ mentions v
  | .forIn _ iter body => mentions iter ++ mentions body
  | .ctx b => mentions b
  | .imp i => match i.src with
    | .path _ _ => []
    | .ident _ n => [n]

def mentionsParams : Ps → List Name
  | .nil => []
  | .pos _ rest => mentionsParams rest
  | .named _ _ dflt rest => mentions dflt ++ mentionsParams rest
  | .sink _ _ rest => mentionsParams rest
  | .noSink _ rest => mentionsParams rest
end

/-- Does the expression bind a name which is visible after it? -/
def declares : E → Bool
  | .skip => false
  | .ident _ _ _ => false
  | .seq a b => declares a || declares b
  | .block _ => false
  | .item b => declares b
  | .letPat p init => !p.isEmpty || declares init
  | .closure _ name _ _ => name.isSome
  | .destruct _ v => declares v
  | .forIn _ iter _ => declares iter
  | .ctx _ => false
  | .imp _ => true

mutual
/-- The documents without the constructs which the code gets wrong:
* no assignment to a destructuring pattern;
* nothing is bound directly in a heading, a list item or a `context`;
* the iterable of a `for` does not mention its loop variables;
* a default value does not mention the function or an earlier parameter;
* imports are from files, and items are single names.
Names are not empty. -/
def Plain : E → Prop
  | .skip => True
  | .ident _ n _ => n ≠ 0
  | .seq a b => Plain a ∧ Plain b
  | .block b => Plain b
  | .item b => Plain b ∧ declares b = false
  | .letPat p init => Plain init ∧ ∀ x ∈ p, x.2 ≠ 0
  | .closure _ name ps body =>
    name ≠ some 0 ∧ PlainParams name.toList ps ∧ Plain body
  | .destruct p v => p = [] ∧ Plain v
  | .forIn p iter body =>
    Plain iter ∧ Plain body ∧ declares iter = false ∧ (∀ x ∈ p, x.2 ≠ 0) ∧
      ∀ n ∈ mentions iter, n ∉ p.map (·.2)
  | .ctx b => Plain b ∧ declares b = false
  | .imp i => (∃ s f, i.src = .path s f) ∧ (∀ a, i.alias = some a → a.2 ≠ 0) ∧
    ∀ l, i.what = .items l → ∀ it ∈ l, (∃ x, it.path = [x] ∧ x.2 ≠ 0) ∧
      ∀ a, it.rename = some a → a.2 ≠ 0

/-- `seen`: the function's name and the parameters before. -/
def PlainParams : List Name → Ps → Prop
  | _, .nil => True
  | seen, .pos p rest => (∀ x ∈ p, x.2 ≠ 0) ∧ PlainParams (seen ++ p.map (·.2)) rest
  | seen, .named _ n dflt rest =>
    n ≠ 0 ∧ Plain dflt ∧ declares dflt = false ∧ (∀ m ∈ mentions dflt, m ∉ seen) ∧
      PlainParams (seen ++ [n]) rest
  | seen, .sink _ n rest => n ≠ 0 ∧ PlainParams (seen ++ [n]) rest
  | seen, .noSink _ rest => PlainParams seen rest
end

/-- No name is imported by a wildcard at the top level of the file. -/
def noStar : E → Bool
  | .seq a b => noStar a && noStar b
  | .item b => noStar b
  | .letPat _ init => noStar init
  | .destruct _ v => noStar v
  | .ctx b => noStar b
  | .imp i => match i.what with
    | .star => false
    | _ => true
  | _ => true

/-- The names an item binds. -/
def Item.binds (it : Item) : List Name :=
  match it.rename with
  | some a => [a.2]
  | none => it.last.toList.map (·.2)

/-- How often the name `n` is bound at the top level of a file. -/
def boundTimes (W : World) (exports : File → Env) (n : Name) : E → Nat
  | .seq a b => boundTimes W exports n a + boundTimes W exports n b
  | .letPat p init => boundTimes W exports n init + (p.map (·.2)).count n
  | .closure _ name _ _ => name.toList.count n
  | .destruct _ v => boundTimes W exports n v
  | .ctx b => boundTimes W exports n b
  | .imp i =>
    ((modName W i (srcMeaning W Env.empty i.src)).toList.map (·.2)).count n +
    (match i.what with
      | .bare => 0
      | .star => (members W exports (srcMeaning W Env.empty i.src) n).isSome.toNat
      | .items l => (l.flatMap Item.binds).count n)
  | _ => 0

/-- A project the rules of which the code follows: every file is plain, and a file with a
wildcard import at its top level binds no name twice there. -/
def PlainProject (W : World) (files : List E) : Prop :=
  ∀ k e, files[k]? = some e → Plain e ∧
    (noStar e = true ∨
      ∀ n, boundTimes W (exportEnv (exportEnvs W (files.take k))) n e ≤ 1)

end Tinymist.Scoping
