/-!
# The type of an expression

Models the types that the checker gives to expressions (crates/tinymist-query/src/analysis/tyck/syntax.rs) and the join of the
types of a block (crates/tinymist-query/src/analysis/tyck.rs:540-626), for the expressions of `Exp`. Left out: calls, field
accesses, functions, operators, control flow out of a block, and what is recorded for other expressions besides the type that
is returned.
-/

namespace Tinymist.ExprTy

abbrev Text := List Char

/-- Values. Contents are not told apart. -/
inductive Val where
  | none
  | auto
  | bool (b : Bool)
  | int (n : Int)
  | str (s : Text)
  | content
  | arr (vs : List Val)
  | dict (fs : List (Text × Val))

/-- Expressions. A loop comes with what its rounds join to, which the checker does not look at. -/
inductive Exp where
  | none
  | auto
  | bool (b : Bool)
  | int (n : Int)
  | str (s : Text)
  /-- Text and other elements of markup. -/
  | text
  /-- Space in markup. -/
  | space
  | var (x : Nat)
  /-- Items, and whether each is spread. -/
  | arr (items : List (Bool × Exp))
  | dict (fields : List (Text × Exp))
  /-- `{ … }` -/
  | code (es : List Exp)
  /-- `[ … ]` -/
  | markup (es : List Exp)
  | cond (c t e : Exp)
  | loop (result : Val)
  /-- `let` with its value. -/
  | bind (init : Exp)

/-- `Ty` (crates/tinymist-analysis/src/ty/def.rs), as far as it is made here. -/
inductive Ty where
  | any
  | undef
  | none
  | space
  | auto
  | content
  | value (v : Val)
  | tuple (ts : List Ty)
  | dict (fs : List (Text × Ty))
  | cond (c t e : Ty)
  | var (x : Nat)

/-- `Joiner` (tyck.rs:540-544); `break_or_continue_or_return` is never set. -/
structure Joiner where
  definite : Ty
  possibles : List Ty

/-- `Joiner::default` (tyck.rs:618-626). -/
def Joiner.start : Joiner := ⟨.none, []⟩

/-- `Joiner::join` (tyck.rs:565-616). -/
def Joiner.join (j : Joiner) (child : Ty) : Joiner :=
  match child, j.definite with
  | .space, _ => j
  | .none, _ => j
  | .any, _ => j
  | _, .any => j
  | .var x, _ => ⟨j.definite, j.possibles ++ [.var x]⟩
  | t, .none => ⟨t, j.possibles⟩
  | _, _ => ⟨.undef, j.possibles⟩

/-- `Joiner::finalize` (tyck.rs:546-563). -/
def Joiner.finalize (j : Joiner) : Ty :=
  match j.possibles with
  | [] => j.definite
  | [t] => t
  | _ => .any

/-- `check_block` (tyck/syntax.rs:46-54), for the types of its children. -/
def joinAll (ts : List Ty) : Ty := (ts.foldl Joiner.join Joiner.start).finalize

mutual
/-- `check_syntax` (tyck/syntax.rs:15-44) after `do_check` (crates/tinymist-query/src/syntax/expr.rs:246-320): literals
(expr.rs:249-255, 297-325), blocks, in which code and markup are not told apart (expr.rs:259-260, 1002-1023), `check_array`
(tyck/syntax.rs:56-74), `check_dict` (tyck/syntax.rs:76-100), `check_let` (tyck/syntax.rs:426-446), `check_conditional`
(tyck/syntax.rs:584-590) and loops (tyck/syntax.rs:592-605). Variables have type variables; the fields of a record are not
sorted here. -/
def check : Exp → Ty
  | .none => .none
  | .auto => .auto
  | .bool b => .value (.bool b)
  | .int n => .value (.int n)
  | .str s => .value (.str s)
  | .text => .content
  | .space => .space
  | .var x => .var x
  | .arr items => .tuple (checkItems items)
  | .dict fields => .dict (checkFields fields)
  | .code es => joinAll (checkAll es)
  | .markup es => joinAll (checkAll es)
  | .cond c t e => .cond (check c) (check t) (check e)
  | .loop _ => .any
  | .bind _ => .none

/-- The items of an array; those that are spread are skipped. -/
def checkItems : List (Bool × Exp) → List Ty
  | [] => []
  | (true, _) :: rest => checkItems rest
  | (false, e) :: rest => check e :: checkItems rest

/-- The fields of a dictionary. -/
def checkFields : List (Text × Exp) → List (Text × Ty)
  | [] => []
  | (k, e) :: rest => (k, check e) :: checkFields rest

/-- The parts of a block. -/
def checkAll : List Exp → List Ty
  | [] => []
  | e :: es => check e :: checkAll es
end

end Tinymist.ExprTy
