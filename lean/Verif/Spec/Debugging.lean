import Verif.Model.Debugging

/-!
# What debugging should do
-/
namespace Tinymist.Debugging.Spec

/-- The files after a history of edits. -/
def filesAfter (f : Files) : List Req → Files
  | [] => f
  | .edit n t :: rs => filesAfter (fun g => if g = n then t else f g) rs
  | _ :: rs => filesAfter f rs

/-- A launch of a program that is there. -/
def Starts (env : Env) (f : Files) (r : Req) (main : Name) (text : String) : Prop :=
  ∃ m a, r = .start m (some a) ∧ env.entry a.root a.program = some main ∧ f main = some text

/-- A request that ends the session. -/
def Ends (r : Req) : Prop :=
  r = .disconnect ∨ r = .terminate ∨ ∃ ids, r = .terminateThreads (some ids) ∧ ids ≠ [] ∧ ∀ i ∈ ids, i = 1

/-- After a history, a program is debugged: it was launched, with the files as they were then, and since then nothing was
launched and nothing ended it. -/
def Debugs (env : Env) (f0 : Files) (hist : List Req) (f : Files) (main : Name) (text : String) : Prop :=
  ∃ pre r post, hist = pre ++ r :: post ∧ f = filesAfter f0 pre ∧ Starts env f r main text ∧
    ∀ p q rest, post = p ++ q :: rest →
      ¬ Ends q ∧ ∀ main' text', ¬ Starts env (filesAfter f0 (pre ++ r :: p)) q main' text'

/-- No launch has arguments that cannot be read. -/
def Readable (hist : List Req) : Prop := ∀ m, .start m none ∉ hist

/-- The answers of a thread. -/
def answers {C R : Type} (calls : List (Call C R)) : List (Int × R) :=
  calls.filterMap fun c => match c with | .respond id r => some (id, r) | _ => none

/-- What should be answered: a request is served at the place where the program stops after as many stops as it was told
to go on before the request. -/
def expected {C R : Type} (res : C → String → R) (places : List C) : Nat → List Ask → List (Int × R)
  | _, [] => []
  | k, .goOn :: rs => expected res places (k + 1) rs
  | k, .evaluate id e :: rs =>
    match places[k]? with
    | none => []
    | some c => (id, res c e) :: expected res places k rs

/-- The calls of a thread other than answers. -/
def shape {C R : Type} (calls : List (Call C R)) : List (Call C R) :=
  calls.filter fun c => match c with | .respond _ _ => false | _ => true

end Tinymist.Debugging.Spec
