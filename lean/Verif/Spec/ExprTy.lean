import Verif.Model.ExprTy

/-!
# Values of expressions, and the values of a type
-/

namespace Tinymist.ExprTy

/-- What Typst joins two values of a block to; `none` if they cannot be joined. -/
def joined : Val → Val → Option Val
  | .none, b => some b
  | a, .none => some a
  | .str a, .str b => some (.str (a ++ b))
  | .content, .content => some .content
  | .content, .str _ => some .content
  | .str _, .content => some .content
  | .arr a, .arr b => some (.arr (a ++ b))
  | .dict a, .dict b => some (.dict (a.filter (fun f => !(b.map Prod.fst).contains f.1) ++ b))
  | _, _ => none

mutual
/-- The value of an expression when the variables have the values `ρ`; `none` if there is an error. -/
def eval (ρ : Nat → Val) : Exp → Option Val
  | .none => some .none
  | .auto => some .auto
  | .bool b => some (.bool b)
  | .int n => some (.int n)
  | .str s => some (.str s)
  | .text => some .content
  | .space => some .content
  | .var x => some (ρ x)
  | .arr items => (evalItems ρ items).map .arr
  | .dict fields => (evalFields ρ fields).map .dict
  | .code es => evalCode ρ .none es
  | .markup es => evalMarkup ρ es
  | .cond c t e =>
    match eval ρ c with
    | some (.bool true) => eval ρ t
    | some (.bool false) => eval ρ e
    | _ => none
  | .loop r => some r
  | .bind e => (eval ρ e).map fun _ => .none

def evalItems (ρ : Nat → Val) : List (Bool × Exp) → Option (List Val)
  | [] => some []
  | (spread, e) :: rest =>
    match eval ρ e, evalItems ρ rest with
    | some v, some vs =>
      if spread then
        match v with
        | .arr us => some (us ++ vs)
        | .none => some vs
        | _ => none
      else some (v :: vs)
    | _, _ => none

def evalFields (ρ : Nat → Val) : List (Text × Exp) → Option (List (Text × Val))
  | [] => some []
  | (k, e) :: rest =>
    match eval ρ e, evalFields ρ rest with
    | some v, some vs => some ((k, v) :: vs)
    | _, _ => none

/-- The parts of a block of code are joined. -/
def evalCode (ρ : Nat → Val) (acc : Val) : List Exp → Option Val
  | [] => some acc
  | e :: es =>
    match eval ρ e with
    | none => none
    | some v =>
      match joined acc v with
      | none => none
      | some acc => evalCode ρ acc es

/-- The parts of markup are shown: it is content, whatever they are. -/
def evalMarkup (ρ : Nat → Val) : List Exp → Option Val
  | [] => some .content
  | e :: es =>
    match eval ρ e with
    | none => none
    | some _ => evalMarkup ρ es
end

mutual
/-- The values of a type. Nothing is said about those of the type that is given when types cannot be joined. -/
def Has (ρ : Nat → Val) : Ty → Val → Prop
  | .any, _ => True
  | .undef, _ => True
  | .none, v => v = .none
  | .space, v => v = .content
  | .auto, v => v = .auto
  | .content, v => v = .content
  | .value u, v => v = u
  | .tuple ts, v => ∃ vs, v = .arr vs ∧ HasAll ρ ts vs
  | .dict fs, v => ∃ vs, v = .dict vs ∧ HasFields ρ fs vs
  | .cond _ t e, v => Has ρ t v ∨ Has ρ e v
  | .var x, v => v = ρ x

/-- One value for each type. -/
def HasAll (ρ : Nat → Val) : List Ty → List Val → Prop
  | [], vs => vs = []
  | t :: ts, vs => ∃ u us, vs = u :: us ∧ Has ρ t u ∧ HasAll ρ ts us

def HasFields (ρ : Nat → Val) : List (Text × Ty) → List (Text × Val) → Prop
  | [], vs => vs = []
  | (k, t) :: fs, vs => ∃ u us, vs = (k, u) :: us ∧ Has ρ t u ∧ HasFields ρ fs us
end

/-- A part of a block that gives nothing. -/
def Quiet : Exp → Prop
  | .none => True
  | .bind _ => True
  | _ => False

/-- An expression with nothing in it of which the type is wrong: no spread items; no parts of a block of which nothing is
known, nor a single variable beside other values; no markup but text. -/
inductive Fine : Exp → Prop
  | none : Fine .none
  | auto : Fine .auto
  | bool (b) : Fine (.bool b)
  | int (n) : Fine (.int n)
  | str (s) : Fine (.str s)
  | text : Fine .text
  | var (x) : Fine (.var x)
  | arr {items} : (∀ i ∈ items, i.1 = false) → (∀ i ∈ items, Fine i.2) → Fine (.arr items)
  | dict {fields} : (∀ f ∈ fields, Fine f.2) → Fine (.dict fields)
  /-- Several variables, or none, among parts of which something is known. -/
  | code {es} : (∀ e ∈ es, Fine e) → (∀ e ∈ es, check e ≠ .any ∧ ∀ x, check e = .var x → e = .var x) →
      (∀ pre x post, es = pre ++ [.var x] ++ post → (∀ y, .var y ∉ pre) → ∃ y, .var y ∈ post) → Fine (.code es)
  /-- One variable. -/
  | only {pre x post} : (∀ e ∈ pre ++ post, Quiet e) → Fine (.code (pre ++ [.var x] ++ post))
  | markup {es} : (∀ e ∈ es, e = .text ∨ e = .space) → .text ∈ es → Fine (.markup es)
  | cond {c t e} : Fine t → Fine e → Fine (.cond c t e)
  | loop (r) : Fine (.loop r)
  | bind (e) : Fine (.bind e)

end Tinymist.ExprTy
