import Verif.Model.Testing
/-! What a user expects of `tinymist test`. -/
namespace Tinymist.Testing
variable {B : Type} [DecidableEq B]

/-- The text has `w` somewhere. -/
def Mentions (w text : Name) : Prop := ∃ a b, text = a ++ w ++ b

/-- Where the reference of the output `k` of the example `e`, its hash, and the output to compare it with are kept, for a name
without dots: `refs/paged/e.png`, `refs/paged/e.hash`, `refs/paged/e.tmp.png`. -/
def imageOf (k : Kind) (e : Name) : File := ⟨k, e ++ (match k with | .paged => ".png".toList | .html => ".html".toList)⟩
def hashOf (k : Kind) (e : Name) : File := ⟨k, e ++ ".hash".toList⟩
def otherOf (k : Kind) (e : Name) : File := ⟨k, e ++ (match k with | .paged => ".tmp.png".toList | .html => ".tmp.html".toList)⟩

/-- An output passes: there is no reference yet, or the reference has its hash, or references are to be updated. -/
def OutputOk (hash : B → B) (update : Bool) (fs : File → Option B) (e : Name) (k : Kind) (d : B) : Prop :=
  update = true ∨ fs (hashOf k e) = none ∨ fs (hashOf k e) = some (hash d)

/-- An example passes: it compiles and renders, to html too if it asks for it, and the outputs pass. -/
def ExampleOk (hash : B → B) (update : Bool) (fs : File → Option B) (x : Example B) : Prop :=
  (∃ d, x.paged = some (some d) ∧ OutputOk hash update fs x.name .paged d) ∧
  ∀ w out, x.html = some (w, out) → ∃ d, out = some (some d) ∧ OutputOk hash update fs x.name .html d

/-- A case passes. A test that is to panic passes if it fails and all messages mention a panic. -/
def CaseOk (hash : B → B) (update : Bool) (fs : File → Option B) : Case B → Prop
  | .test _ err => err = none
  | .panic _ err => ∃ msgs, err = some msgs ∧ ∀ m ∈ msgs, Mentions "panic".toList m
  | .exampleFn _ x => ∃ x', x = some x' ∧ ExampleOk hash update fs x'
  | .file x => ExampleOk hash update fs x

/-- The example a case renders. -/
def Case.example? : Case B → Option (Example B)
  | .exampleFn _ x => x
  | .file x => some x
  | _ => none

/-- The names of the examples. -/
def exampleNames (cases : List (Case B)) : List Name := cases.filterMap fun c => c.example?.map (·.name)

/-- No system call fails. -/
def NoFailure (sched : List (Nat × Bool)) : Prop := ∀ x ∈ sched, x.2 = false

/-- All cases have ended. -/
def Ended (c : List (Prog B) × St B) : Prop := ∀ p ∈ c.1, p = .done

/-- What an output should leave behind, if there is no failure: nothing changes if it matches; the output is the new
reference if there was none or references are updated; else it is put beside the reference. -/
def Leaves (hash : B → B) (update : Bool) (e : Name) (k : Kind) (d : B) (fs fs' : File → Option B) : Prop :=
  (fs (hashOf k e) = some (hash d) → fs' (imageOf k e) = fs (imageOf k e) ∧ fs' (hashOf k e) = fs (hashOf k e) ∧
    fs' (otherOf k e) = none) ∧
  (fs (hashOf k e) = none ∨ update = true ∧ fs (hashOf k e) ≠ some (hash d) →
    fs' (imageOf k e) = some d ∧ fs' (hashOf k e) = some (hash d) ∧ fs' (otherOf k e) = none) ∧
  (fs (hashOf k e) ≠ none → fs (hashOf k e) ≠ some (hash d) → update = false →
    fs' (imageOf k e) = fs (imageOf k e) ∧ fs' (hashOf k e) = fs (hashOf k e) ∧ fs' (otherOf k e) = some d)

/-- The outputs of an example. There is none to html unless it compiles to pages. -/
def Outputs (x : Example B) (k : Kind) (d : B) : Prop :=
  match k with
  | .paged => x.paged = some (some d)
  | .html => x.paged.isSome = true ∧ ∃ w, x.html = some (w, some (some d))

/-- An example is checked: it compiles and renders, to html too if it asks for it, and for each output the hash recorded is that
of the output and there is no output put beside the reference. -/
def Recorded (hash : B → B) (fs : File → Option B) (x : Example B) : Prop :=
  (∃ d, x.paged = some (some d) ∧ fs (hashOf .paged x.name) = some (hash d) ∧ fs (otherOf .paged x.name) = none) ∧
  ∀ w out, x.html = some (w, out) →
    ∃ d, out = some (some d) ∧ fs (hashOf .html x.name) = some (hash d) ∧ fs (otherOf .html x.name) = none

/-- The keys pressed since the last run ended. -/
def sinceRun (l : List Key) : List Key :=
  (l.reverse.takeWhile fun k => match k with | .compiled => false | _ => true).reverse

end Tinymist.Testing
