import Verif.Model.Universe
/-!
# What a revision number stands for, and what worlds show

Uses only the data types of `Model/Universe`.
-/
namespace Tinymist.Universe

/-- What a compilation depends on. -/
def view (u : Universe) : Entry × Nat × Bool × Nat × Nat × Nat :=
  (u.entry, u.inputs, u.html, u.fonts.content, u.packages.content, u.filesRev)

/-- Equal revisions of providers mean equal fonts (packages); a provider may also have no revision. -/
def Honest (ps : List Provider) : Prop :=
  ∀ p ∈ ps, ∀ q ∈ ps, p.rev = q.rev → p.rev ≠ none → p.content = q.content

/-- The providers of fonts (packages) ever used. -/
def fontsUsed (u : Universe) (steps : List (List Change)) : List Provider :=
  u.fonts :: steps.flatten.filterMap fun | .fonts p => some p | _ => none

def packagesUsed (u : Universe) (steps : List (List Change)) : List Provider :=
  u.packages :: steps.flatten.filterMap fun | .packages p => some p | _ => none

/-- Worlds `a` and `b` show the same apart from their entry, inputs and files. -/
def SameOtherwise {V : Type} (a b : World V) : Prop :=
  a.html = b.html ∧ a.fonts = b.fonts ∧ a.packages = b.packages ∧ a.revision = b.revision

/-- The answers to be expected from a list of reads, if each file has one content. -/
def contents {V : Type} (files : Nat → V) (reads : List (SourceDb.Kind × Nat)) : List (Option V) :=
  reads.map fun r => some (files r.2)

/-- Everything that can be asked of world `w` is the same in `s` and `t`; only its time may have been set. -/
def Undisturbed {V : Type} (s t : State V) (w : Nat) : Prop :=
  ∃ x y : World V, s.worlds[w]? = some x ∧ t.worlds[w]? = some y ∧
    x = { y with now := x.now } ∧ (∀ n, x.now = some n → y.now = some n) ∧ s.dbs[x.db]? = t.dbs[x.db]?

/-- The operation is about worlds `n` and later ones. -/
def Op.From {V : Type} (n : Nat) : Op V → Prop
  | .snapshot _ _ | .tick _ => True
  | .task w _ _ | .takeDb w | .shadow w _ _ | .read w _ _ | .today w | .html w | .paged w | .compiling w _ => n ≤ w

end Tinymist.Universe
