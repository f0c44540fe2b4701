import Verif.Model.RevCache
/-!
# What analyses of files should be

Uses the texts and analyses of the model.
-/

namespace Tinymist.RevCache.Spec

mutual
/-- The exports of a text, in these files. -/
inductive Exports (L : Lang) (files : Fid → Option Src) : Fid → Src → Exp → Prop where
  | mk (f s imps) (h : Imports L files (L.targets f s) imps) : Exports L files f s (L.exports f s imps)

/-- The exports of imported files: those that are not there have none. -/
inductive Imports (L : Lang) (files : Fid → Option Src) : List Fid → List (Fid × Exp) → Prop where
  | nil : Imports L files [] []
  | missing (f fs imps) (h : files f = none) (hs : Imports L files fs imps) : Imports L files (f :: fs) ((f, 0) :: imps)
  | found (f s e fs imps) (h : files f = some s) (he : Exports L files f s e) (hs : Imports L files fs imps) :
    Imports L files (f :: fs) ((f, e) :: imps)
end

/-- The analysis is that of the text, in these files. When it was made does not matter. -/
structure Analysis (L : Lang) (files : Fid → Option Src) (f : Fid) (s : Src) (v : Info) : Prop where
  fid : v.fid = f
  src : v.src = s
  imports : Imports L files (L.targets f s) v.imports
  exports : v.exports = L.exports f s v.imports
  body : v.body = L.body f s v.imports

/-- No file imports itself, directly or not. -/
def Ranked (L : Lang) (files : Fid → Option Src) (rank : Fid → Nat) : Prop :=
  ∀ f s, files f = some s → ∀ t ∈ L.roots f s ++ L.targets f s, rank t < rank f

/-- The worlds of the questions, in the order in which they are begun. -/
def worlds (ops : List Op) : List World := ops.filterMap fun | .enter _ w => some w | _ => none

/-- A revision number stands for one state of the files. -/
def OneProject (ops : List Op) : Prop := ∀ w ∈ worlds ops, ∀ v ∈ worlds ops, w.rev = v.rev → w.files = v.files

/-- What is expected of the server for a step: a question that is put when nothing is kept is the only one; a question is about a state of the
files that is not older than those begun when it was put; and what is kept is only cleared when no question is going on. -/
def Allowed (st : St) : Op → Prop
  | .lock _ => st.slots = [] → st.locks = []
  | .enter id w => ∀ l ∈ st.locks, l.id = id → l.est ≤ w.rev
  | .clear => st.locks = [] ∧ st.gcs = []
  | _ => True

/-- What is expected of the server, from this state on. -/
def Calm (L : Lang) : St → List Op → Prop
  | _, [] => True
  | st, o :: ops => Allowed st o ∧ Calm L (step L st o).1 ops

/-- The types of a text in these files. -/
inductive TypeIn (L : Lang) (typ : Fid → Src → List (Fid × Nat) → Nat) (files : Fid → Option Src) : Fid → Src → Nat → Prop where
  | mk (f s) (tys : Fid → Nat) (h : ∀ t ∈ L.targets f s, ∀ s', files t = some s' → TypeIn L typ files t s' (tys t)) :
    TypeIn L typ files f s (typ f s (((L.targets f s).filter fun t => (files t).isSome).map fun t => (t, tys t)))

end Tinymist.RevCache.Spec
