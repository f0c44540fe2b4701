import Verif.Model.CallArgs
/-!
# Which parameter an argument is passed to

Typst's own rules (`call_closure` of the evaluator, an external crate): the positional arguments fill the
positional parameters in order, and what is left over goes to the sink, wherever the sink stands.
-/
namespace Tinymist.CallArgs

def ClosureParam.name : ClosureParam → Name
  | .pos n => n
  | .named n => n
  | .sink n => n

def ClosureParam.isPos : ClosureParam → Bool
  | .pos _ => true
  | _ => false

def ClosureParam.isSink : ClosureParam → Bool
  | .sink _ => true
  | _ => false

/-- The number of positional parameters. -/
def posCount (ps : List ClosureParam) : Nat := (ps.filter (·.isPos)).length

/-- In a call with `n` positional arguments, the positional argument number `i` (from 0) is passed to
the parameter `q`. The sink takes the `n - posCount ps` arguments that the other parameters leave. -/
inductive Bound (ps : List ClosureParam) (n : Nat) : Nat → ClosureParam → Prop
  | front {a b : List ClosureParam} {x : Name} : ps = a ++ .pos x :: b → (∀ q ∈ a, q.isSink = false) →
      posCount a < n → Bound ps n (posCount a) (.pos x)
  | back {a b : List ClosureParam} {x : Name} : ps = a ++ .pos x :: b → (∃ q ∈ a, q.isSink = true) →
      posCount a + (n - posCount ps) < n →
      Bound ps n (posCount a + (n - posCount ps)) (.pos x)
  | sink {a b : List ClosureParam} {x : Name} {i : Nat} : ps = a ++ .sink x :: b → posCount a ≤ i →
      i < posCount a + (n - posCount ps) → Bound ps n i (.sink x)

/-- The parser allows one sink. -/
def OneSink (ps : List ClosureParam) : Prop := (ps.filter (·.isSink)).length ≤ 1

/-- No positional parameter stands after the sink. -/
def SinkLast (ps : List ClosureParam) : Prop :=
  ∀ a x b, ps = a ++ .sink x :: b → ∀ q ∈ b, q.isPos = false

/-- The signature the analysis sees for a closure with these parameters. -/
def sigOf (ps : List ClosureParam) : Sig := funcSignature (ps.map (·.spec))

def Arg.isPos : Arg → Bool
  | .pos _ => true
  | _ => false

/-- The number of positional arguments in a list. -/
def posArgs (args : List Arg) : Nat := (args.filter (·.isPos)).length

/-- The number of positional arguments among those bound by `.with`. -/
def withArgs (withs : List (List (Option Name))) : Nat := (withs.flatten.filter (·.isNone)).length

/-- The kind of matching a parameter should have. -/
def ClosureParam.kind : ClosureParam → Kind
  | .pos _ => .positional
  | .named _ => .named
  | .sink _ => .rest

/-- The child number `k` stands between the parentheses. -/
def Between (args : List Arg) (k : Nat) : Prop :=
  ∃ i : Nat, i < k ∧ args[i]? = some .lparen ∧ ∀ j : Nat, i < j → j < k → args[j]? ≠ some .rparen

/-- A positional argument that is not a content block behind the parentheses. -/
def Direct (i : Option Info) : Bool := i.any fun i => i.kind = .positional && !i.content

/-- An argument that goes to the sink. -/
def Rest (i : Option Info) : Bool := i.any fun i => i.kind = .rest

end Tinymist.CallArgs
