import Verif.Model.Pages
/-!
# Types in doc comments

Models `DocsChecker` (`crates/tinymist-query/src/syntax/docs.rs`): `check_pat_docs` 56-89, `generate_var` 135-147, `check_type_strings` 149-160,
`check_type_ident` 162-221, `check_type_annotation` 223-242 and `check_type_expr` 244-361. `Ty::from_types`
(`crates/tinymist-analysis/src/ty/def.rs` 153-169).

A doc comment is a module: `Mod` gives, for a name, the code of the raw text it is bound to, if it is bound to one, and the first expression of
that code, if there is one. Simplified: unions keep the order of their parts (the code sorts them); literals are not evaluated, they are the
values; `locals` is a list, newest first, and rolling back is taking the old list (the map with snapshots is C27); apostrophes are letters; the names
of the types of the language are a parameter. Recursion takes fuel: `none` on the outside means that it was not enough.
-/

namespace Tinymist.DocTypes

abbrev Text := List Char

/-- `Ty`, as far as doc comments can say it. -/
inductive Ty where
  | any
  | bool (b : Option Bool)
  | type (name : Text)
  | value (v : Text)
  | union (ts : List Ty)
  | array (t : Ty)
  | tag (s : Text)
  | func (pos : List Ty) (named : List (Text × Ty)) (rest : Option Ty) (body : Ty)
  | var (id : Nat) (name : Text)

mutual
/-- `ast::Expr`. A call has the callee if that is a name, and the first argument if there is one that is positional. -/
inductive Expr where
  | ident (n : Text)
  | str (s : Text)
  | lit (v : Text)
  | binary (isOr : Bool) (l r : Expr)
  | call (callee : Option Text) (first : Option Expr)
  | closure (params : List Param) (body : Expr)
  | other

/-- `ast::Param`: a positional one has a name if it is not a pattern, a spread one if it binds one. -/
inductive Param where
  | pos (n : Option Text)
  | named (n : Text) (e : Expr)
  | spread (n : Option Text)
end

/-- A module made of a doc comment: nothing for names that are not bound to raw text, and nothing inside if the code of it is empty. -/
abbrev Mod := Text → Option (Option Expr)

/-- `DocsChecker` (docs.rs 39-51) without the file. -/
structure St where
  globals : List (Text × Option Ty)
  locals : List (Text × Ty)
  /-- the variables that were generated, newest first: `var_bounds` -/
  vars : List (Nat × Text)
  next : Nat

def St.init : St := ⟨[], [], [], 0⟩

def find {α : Type} (x : Text) : List (Text × α) → Option α
  | [] => none
  | (y, v) :: l => if y = x then some v else find x l

/-- `Ty::from_types` (def.rs 153-169). -/
def fromTypes : List Ty → Ty
  | [] => .any
  | [t] => t
  | ts => .union ts

/-- `generate_var` (docs.rs 135-147). -/
def St.generate (st : St) (name : Text) : Ty × St :=
  (.var (st.next + 1) name, { st with vars := (st.next + 1, name) :: st.vars, next := st.next + 1 })

/-- `TYPE_REPRS` (docs.rs 163-216): the five names at the end replace those of types. -/
def builtinOf (types : Text → Option Text) (x : Text) : Option Ty :=
  if x = ['a', 'n', 'y'] then some .any
  else if x = ['b', 'o', 'o', 'l'] then some (.bool none)
  else if x = ['b', 'o', 'o', 'l', 'e', 'a', 'n'] then some (.bool none)
  else if x = ['f', 'a', 'l', 's', 'e'] then some (.bool (some false))
  else if x = ['t', 'r', 'u', 'e'] then some (.bool (some true))
  else (types x).map .type

abbrev Check := Expr → St → Option (Option Ty × St)

/-- `check_type_ident` and `check_type_annotation` (docs.rs 218-242): what a name stands for is noted after it was found out, also if it is
nothing, but not if the name is not bound to code. -/
def checkIdent (types : Text → Option Text) (m : Mod) (chk : Check) (x : Text) (st : St) : Option (Option Ty × St) :=
  match builtinOf types x with
  | some t => some (some t, st)
  | none =>
    match find x st.locals with
    | some t => some (some t, st)
    | none =>
      match find x st.globals with
      | some r => some (r, st)
      | none =>
        match m x with
        | none => some (none, st)
        | some none => some (none, st)
        | some (some e) => (chk e st).map fun r => (r.1, { r.2 with globals := (x, r.1) :: r.2.globals })

/-- The right operands of a chain of `or`s (docs.rs 262-271): the loop goes on while the right operand is one more `or`. -/
def operands : Expr → List Expr
  | .binary true l r => l :: operands r
  | e => [e]

/-- Checks expressions one after the other and stops at the first that means nothing (`?` in docs.rs 260-271). -/
def checkAll (chk : Check) : List Expr → St → Option (Option (List Ty) × St)
  | [], st => some (some [], st)
  | e :: es, st =>
    match chk e st with
    | none => none
    | some (none, st) => some (none, st)
    | some (some t, st) =>
      match checkAll chk es st with
      | none => none
      | some (none, st) => some (none, st)
      | some (some ts, st) => some (some (t :: ts), st)

/-- `BTreeMap::insert`, as a list. -/
def insertNamed (n : Text) (t : Ty) : List (Text × Ty) → List (Text × Ty)
  | [] => [(n, t)]
  | (k, u) :: l => if k = n then (n, t) :: l else (k, u) :: insertNamed n t l

/-- What the loop over parameters collects. -/
structure Sig where
  pos : List Ty
  named : List (Text × Ty)
  rest : Option Ty

/-- The loop over parameters (docs.rs 311-342). -/
def checkParams (chk : Check) : List Param → Sig → St → Option (Sig × St)
  | [], s, st => some (s, st)
  | .pos (some n) :: ps, s, st =>
    let (t, st) := st.generate n
    checkParams chk ps { s with pos := s.pos ++ [t] } { st with locals := (n, t) :: st.locals }
  | .pos none :: ps, s, st => checkParams chk ps { s with pos := s.pos ++ [.any] } st
  | .named n e :: ps, s, st =>
    match chk e st with
    | none => none
    | some (r, st) => checkParams chk ps { s with named := insertNamed n (r.getD .any) s.named } st
  | .spread none :: ps, s, st => checkParams chk ps s st
  | .spread (some n) :: ps, s, st =>
    let (t, st) := st.generate n
    checkParams chk ps { s with rest := some t } { st with locals := (n, t) :: st.locals }

/-- The arm for closures (docs.rs 302-354). -/
def checkClosure (chk : Check) (params : List Param) (body : Expr) (st : St) : Option (Option Ty × St) :=
  match checkParams chk params ⟨[], [], none⟩ st with
  | none => none
  | some (s, st') =>
    match chk body st' with
    | none => none
    | some (r, st'') => some (r.map (Ty.func s.pos s.named s.rest), { st'' with locals := st.locals })

/-- `check_type_expr` (docs.rs 244-361). -/
def check (types : Text → Option Text) (m : Mod) : Nat → Check
  | 0, _, _ => none
  | n + 1, e, st =>
    match e with
    | .ident x => checkIdent types m (check types m n) x st
    | .str s => some (some (.value s), st)
    | .lit v => some (some (.value v), st)
    | .binary _ l r => (checkAll (check types m n) (l :: operands r) st).map fun r => (r.1.map fromTypes, r.2)
    | .call (some callee) first =>
      if callee = ['a', 'r', 'r', 'a', 'y'] then
        match first with
        | none => some (none, st)
        | some e => (check types m n e st).map fun r => (r.1.map Ty.array, r.2)
      else if callee = ['t', 'a', 'g'] then
        match first with
        | some (.str s) => some (some (.tag s), st)
        | _ => some (none, st)
      else some (none, st)
    | .call none _ => some (none, st)
    | .closure params body => checkClosure (check types m n) params body st
    | .other => some (none, st)

/-- The loop of `check_type_strings` (docs.rs 150-157): names that mean nothing are left out. -/
def checkNames (types : Text → Option Text) (m : Mod) (n : Nat) : List Text → St → Option (List Ty × St)
  | [], st => some ([], st)
  | x :: xs, st =>
    match checkIdent types m (check types m n) x st with
    | none => none
    | some (r, st) => (checkNames types m n xs st).map fun p => (r.toList ++ p.1, p.2)

/-- `check_type_strings` (docs.rs 149-160): the text is split at commas. -/
def checkStrings (types : Text → Option Text) (m : Mod) (n : Nat) (input : Text) (st : St) : Option (Ty × St) :=
  (checkNames types m n ((Pages.split ',' input).map Pages.trim) st).map fun p => (fromTypes p.1, p.2)

/-- The loop over parameters of `check_pat_docs` (docs.rs 68-77), without the text of their docs: a later one replaces an earlier one. -/
def checkVars (types : Text → Option Text) (m : Mod) (n : Nat) : List (Text × Text) → List (Text × Ty) → St → Option (List (Text × Ty) × St)
  | [], acc, st => some (acc, st)
  | (x, input) :: ps, acc, st =>
    match checkStrings types m n input st with
    | none => none
    | some (t, st) => checkVars types m n ps (insertNamed x t acc) st

end Tinymist.DocTypes
