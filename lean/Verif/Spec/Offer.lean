import Verif.Model.Offer

/-!
# The names in scope at a cursor

The scope is what running the program up to the cursor gives: declarations are run in the order of the text, a later one
hides an earlier one of the same name, and what is declared in a block is gone behind it.
-/

namespace Tinymist.Offer.Spec

/-- The bindings in force, the newest first. -/
abbrev Env (τ : Type) := List (Binding τ)

/-- What a name stands for: its newest binding. -/
def valueOf {τ : Type} (env : Env τ) (n : String) : Option τ := (env.find? (·.name = n)).map (·.ty)

/-- Binds names one after the other. -/
def bindAll {τ : Type} (bound : List (Binding τ)) (env : Env τ) : Env τ := bound.foldl (fun e b => b :: e) env

/-- Running an import: its new name first, then what is behind the colon; without both, the name of the module. -/
def runImport {τ : Type} (i : Import τ) (env : Env τ) : Env τ :=
  let env := match i.newName, i.imports, i.source with
    | some b, _, _ => b :: env
    | none, none, some m => m.self :: env
    | _, _, _ => env
  match i.imports, i.source with
  | some (.items bound), _ => bindAll bound env
  | some .wildcard, some m => bindAll m.members env
  | _, _ => env

mutual
/-- Running a node that is before the cursor. A node that is no block leaves what is declared in it. -/
def run {τ : Type} : Item τ → Env τ → Env τ
  | .letB bound, env => bindAll bound env
  | .letFn b, env => b :: env
  | .imports i, env => runImport i env
  | .nested items, env => runAll items env
  | .code items, env => runAll items env
  | .closing, env => env
  | .other, env => env
/-- Running nodes in the order of the text. -/
def runAll {τ : Type} : List (Item τ) → Env τ → Env τ
  | [], env => env
  | i :: l, env => runAll l (run i env)
end

/-- A place at the mark that closes a block is behind the block. -/
def behind {τ : Type} (f : Frame τ) (i : Item τ) : Bool :=
  match f.self, i with
  | .closing, .code _ => true
  | _, _ => false

/-- The names that the parameters of a function bind. -/
def bound {τ : Type} : Param τ → List (Binding τ)
  | .pos bs => bs
  | .named b => [b]
  | .spread (some b) => [b]
  | .spread none => []

/-- The scope at a cursor, and the function with a name whose definition it is in, but not yet in the body. The path is
read from the root: entering a body binds its names; then the nodes to the left are run. The names of a `let` are not
bound within it, except that a function knows itself in its body. -/
def scopeAt {τ : Type} : List (Frame τ) → Env τ × Option (Binding τ)
  | [] => ([], none)
  | f :: up =>
    let (outer, fn) := scopeAt up
    let inner := match f.cross with
      | .forBody pattern => bindAll pattern outer
      | .fnBody params => bindAll (params.flatMap bound) (fn.toList ++ outer)
      | .fnHead => outer
      | .plain => outer
    let fn := match f.self, f.cross with
      | .letFn b, _ => some b
      | _, .plain => fn
      | _, _ => none
    (runAll (f.left.filter (fun i => !behind f i)) inner, fn)

/-- What a name stands for at a cursor: a binding in scope, or else one of the library, or else the module `std`. -/
def visible {τ : Type} (lib : List (Binding τ)) (std : τ) (path : List (Frame τ)) (n : String) : Option τ :=
  valueOf ((scopeAt path).1 ++ lib ++ [⟨"std", std⟩]) n

/-- No name is bound twice. -/
def Distinct {τ : Type} (l : List (Binding τ)) : Prop := (l.map (·.name)).Nodup

/-- The parser rejects a pattern, or parameters, with a name twice; a module has every name once. -/
def Item.Valid {τ : Type} : Item τ → Prop
  | .letB b => Distinct b
  | .imports i => ∀ m, i.source = some m → Distinct m.members
  | _ => True

def Cross.Valid {τ : Type} : Cross τ → Prop
  | .forBody p => Distinct p
  | .fnBody ps => Distinct (ps.flatMap bound)
  | _ => True

/-- The names on the path and to its left are as the parser allows them. -/
def Valid {τ : Type} (path : List (Frame τ)) : Prop :=
  ∀ f ∈ path, Cross.Valid f.cross ∧ Item.Valid f.self ∧ ∀ i ∈ f.left, Item.Valid i

/-- The name is not bound in a heading, a list item or another node before the cursor that is no block, nor in the block
of a blank at its end. -/
def NotNested {τ : Type} (n : String) (path : List (Frame τ)) : Prop :=
  ∀ f ∈ path, ∀ i ∈ f.left, behind f i = false → ∀ items, i = .nested items ∨ i = .code items →
    ∀ b ∈ runAll items [], b.name ≠ n

/-- No import binds the name twice in its list. -/
def NotTwice {τ : Type} (path : List (Frame τ)) : Prop :=
  ∀ f ∈ path, ∀ i bs, (.imports i = f.self ∨ .imports i ∈ f.left) → i.imports = some (.items bs) → Distinct bs

/-- The cursor is not in a `let` that binds the name, other than in the body of the function it defines, and not in an
import. -/
def NotOwn {τ : Type} (n : String) (path : List (Frame τ)) : Prop :=
  (∀ f ∈ path, ∀ bs, f.self = .letB bs → ∀ b ∈ bs, b.name ≠ n) ∧
  (∀ f ∈ path, ∀ i, f.self ≠ .imports i) ∧
  ∀ pre f up b, path = pre ++ f :: up → f.self = .letFn b → b.name = n →
    ∃ pre' g c params, pre = pre' ++ [g, c] ∧ g.cross = .fnBody params ∧ c.cross = .plain ∧ c.self = .other ∧ c.left = [.other]

end Tinymist.Offer.Spec
