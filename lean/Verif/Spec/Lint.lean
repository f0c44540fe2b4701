import Verif.Model.Lint
/-!
# The linter: what is meant
-/
namespace Tinymist.Lint

/-! ## Where a jump belongs -/

/-- Where an expression is: the innermost loop around it inside of the innermost function, this function, and the loop around it
on its outside. -/
structure Place where
  loop : Option Nat
  fn : Option Nat
  outer : Option Nat

/-- What a part of an expression is inside of. -/
inductive Into where
  | same
  | loop (id : Nat)
  | fn (id : Nat)

def enter (p : Place) : Into → Place
  | .same => p
  | .loop id => ⟨some id, p.fn, p.outer⟩
  | .fn id => ⟨none, some id, p.loop⟩

/-- All parts of an expression. The linter looks at those marked `true`. -/
def parts : Expr → List (Bool × Into × Expr)
  | .lit _ _ => []
  | .name => []
  | .paren e => [(true, .same, e)]
  | .block es => es.map fun e => (true, .same, e)
  | .seq es => es.map fun e => (true, .same, e)
  | .coll _ es => es.map fun e => (true, .same, e)
  | .include _ => []
  | .unary e => [(true, .same, e)]
  | .binary l r => [(true, .same, l), (true, .same, r)]
  | .field e => [(true, .same, e)]
  | .call callee args => (callee :: args).map fun e => (false, .same, e)
  | .closure id body => [(true, .fn id, body)]
  | .letIn init => init.map fun e => (true, .same, e)
  | .destruct e => [(true, .same, e)]
  | .set _ cond args target => (cond ++ args ++ [target]).map fun e => (true, .same, e)
  | .show _ sel transform => (sel ++ [transform]).map fun e => (true, .same, e)
  | .contextual id body => [(true, .fn id, body)]
  | .cond c t els => (c :: t :: els).map fun e => (true, .same, e)
  | .while id c body => [(true, .loop id, c), (true, .loop id, body)]
  | .for id iterable body => [(true, .loop id, iterable), (true, .loop id, body)]
  | .break _ => []
  | .continue _ => []
  | .ret _ v => v.map fun e => (false, .same, e)

/-- `Within looked p e q x`: the expression at place `p` has `x` in it, or is it, at place `q`; by parts that are looked at, if
`looked`. -/
inductive Within (looked : Bool) : Place → Expr → Place → Expr → Prop
  | here (p : Place) (e : Expr) : Within looked p e p e
  | part {p q : Place} {e c x : Expr} {b : Bool} {i : Into} : (b, i, c) ∈ parts e → (looked = true → b = true) →
      Within looked (enter p i) c q x → Within looked p e q x

def top : Place := ⟨none, none, none⟩

/-- Something in a file. -/
def InFile (looked : Bool) (file : List Expr) (q : Place) (x : Expr) : Prop := ∃ e ∈ file, Within looked top e q x

/-- Jumps of loops. -/
def LoopJump (x : Expr) (id : Nat) : Prop := x = .break id ∨ x = .continue id

/-! ## Blocks without effect -/

/-- Rules, with their spans. -/
def RuleAt (x : Expr) (id : Nat) : Prop := (∃ c a t, x = .set id c a t) ∨ ∃ s t, x = .show id s t

/-- Blocks that have rules and nothing to apply them to: there are only rules and spaces, up to the end or to a jump. -/
def OnlyRules (es : List Expr) : Prop :=
  ∃ rules rest, es = rules ++ rest ∧ (∀ x ∈ rules, (∃ id, RuleAt x id) ∨ ∃ id, x = .lit .trivia id) ∧
    (∃ x ∈ rules, ∃ id, RuleAt x id) ∧ (rest = [] ∨ ∃ j more id, rest = j :: more ∧ LoopJump j id)

/-- The bodies of conditions and loops and the transformation of a show rule. -/
def Body (x b : Expr) : Prop :=
  (∃ c els, x = .cond c b els) ∨ (∃ c t els, x = .cond c t els ∧ b ∈ els) ∨ (∃ id c, x = .while id c b) ∨
    (∃ id c, x = .for id c b) ∨ ∃ id sel, x = .show id sel b

/-! ## Running a function -/

/-- How a run of an expression ends. -/
inductive Flow where
  | normal | break | continue
  | ret (value : Bool)
  deriving DecidableEq, Repr

/-- Expressions that are taken to be evaluated without a jump: what they are made of is not followed. -/
def Atom : Expr → Prop
  | .lit .. | .name | .coll .. | .include .. | .field .. | .call .. | .closure .. | .letIn .. | .destruct .. | .set .. | .show ..
  | .contextual .. => True
  | _ => False

mutual
/-- The runs of an expression: how it may end. Conditions may turn out either way. -/
inductive Run : Expr → Flow → Prop
  | atom {e} : Atom e → Run e .normal
  | paren {e f} : Run e f → Run (.paren e) f
  | block {es f} : Runs es f → Run (.block es) f
  | seq {es f} : Runs es f → Run (.seq es) f
  | unary {e f} : Run e f → Run (.unary e) f
  | binary {l r f} : Runs [l, r] f → Run (.binary l r) f
  | then {c t els f} : Run t f → Run (.cond c t els) f
  | else {c t els f} : Runs els f → Run (.cond c t els) f
  | whileEnd {id c b} : Run (.while id c b) .normal
  | whileNext {id c b f g} : Run b f → f = .normal ∨ f = .continue → Run (.while id c b) g → Run (.while id c b) g
  | whileBreak {id c b} : Run b .break → Run (.while id c b) .normal
  | whileRet {id c b v} : Run b (.ret v) → Run (.while id c b) (.ret v)
  | forEnd {id c b} : Run (.for id c b) .normal
  | forNext {id c b f g} : Run b f → f = .normal ∨ f = .continue → Run (.for id c b) g → Run (.for id c b) g
  | forBreak {id c b} : Run b .break → Run (.for id c b) .normal
  | forRet {id c b v} : Run b (.ret v) → Run (.for id c b) (.ret v)
  | break {id} : Run (.break id) .break
  | continue {id} : Run (.continue id) .continue
  | ret {id v} : Run (.ret id v) (.ret (!v.isEmpty))
/-- One after another, until one jumps. -/
inductive Runs : List Expr → Flow → Prop
  | nil : Runs [] .normal
  | next {e es f} : Run e .normal → Runs es f → Runs (e :: es) f
  | stop {e es f} : Run e f → f ≠ .normal → Runs (e :: es) f
end

/-- Expressions whose value is joined to that of the block: with their spans. -/
def ValueAt (x : Expr) (id : Nat) : Prop := x = .lit .value id ∨ (∃ es, x = .coll id es) ∨ x = .include id

/-- Values and rules, with their spans. -/
def Shown (y : Expr) (id : Nat) (rule : Bool) : Prop := (ValueAt y id ∧ rule = false) ∨ (RuleAt y id ∧ rule = true)

/-- Expressions that are no values to the linter. Calls are among them. -/
def Passed : Expr → Prop
  | .lit k _ => k ≠ .value
  | .name | .field .. | .call .. | .closure .. | .letIn .. | .destruct .. | .contextual .. => True
  | _ => False

mutual
/-- `After x e f`: a run of `e` from behind an evaluation of `x` in it may end with `f`. -/
inductive After (x : Expr) : Expr → Flow → Prop
  | here : After x x .normal
  | paren {e f} : After x e f → After x (.paren e) f
  | block {es f} : Afters x es f → After x (.block es) f
  | seq {es f} : Afters x es f → After x (.seq es) f
  | then {c t els f} : After x t f → After x (.cond c t els) f
  | else {c t els f} : Afters x els f → After x (.cond c t els) f
  | whileNext {id c b f g} : After x b f → f = .normal ∨ f = .continue → Run (.while id c b) g → After x (.while id c b) g
  | whileBreak {id c b} : After x b .break → After x (.while id c b) .normal
  | whileRet {id c b v} : After x b (.ret v) → After x (.while id c b) (.ret v)
  | forNext {id c b f g} : After x b f → f = .normal ∨ f = .continue → Run (.for id c b) g → After x (.for id c b) g
  | forBreak {id c b} : After x b .break → After x (.for id c b) .normal
  | forRet {id c b v} : After x b (.ret v) → After x (.for id c b) (.ret v)
inductive Afters (x : Expr) : List Expr → Flow → Prop
  | next {e es f} : After x e .normal → Runs es f → Afters x (e :: es) f
  | stop {e es f} : After x e f → f ≠ .normal → Afters x (e :: es) f
  | later {e es f} : Afters x es f → Afters x (e :: es) f
end

/-- The bodies of functions. -/
def FnBody (x body : Expr) : Prop := ∃ id, x = .closure id body ∨ x = .contextual id body

end Tinymist.Lint
