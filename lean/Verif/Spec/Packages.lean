import Verif.Model.Packages
/-! What a user expects of packages. -/
namespace Tinymist.Packages

/-- Namespaces and names are identifiers, so have no slash; the numbers fit. -/
structure Spec.Plain (s : Spec) : Prop where
  ns : '/' ∉ s.ns
  name : '/' ∉ s.name

def Version.Fits (v : Version) : Prop := v.major ≤ u32Max ∧ v.minor ≤ u32Max ∧ v.patch ≤ u32Max

/-- `v` is not newer than `w`. -/
def Version.Le (v w : Version) : Prop :=
  v.major < w.major ∨ v.major = w.major ∧ (v.minor < w.minor ∨ v.minor = w.minor ∧ v.patch ≤ w.patch)

section
variable {B : Type}

/-- The directory has the files of the archive and no others; of files of one name the last counts. -/
def Holds (d : Dir B) (files : List (Text × B)) : Prop :=
  ∀ f, d f = (files.reverse.find? fun x => x.1 = f).map (·.2)

/-- The call is on its way to the network, at it, or looks at what came of it. -/
def Phase.Busy : Phase B → Prop
  | .request | .create .. | .unpack .. | .remove | .final => True
  | _ => False

/-- The call has begun to write and has not ended. -/
def Phase.Writing : Phase B → Prop
  | .unpack .. | .remove => True
  | _ => False

/-- What must not happen for packages to be whole: the server is killed while it unpacks, a package is looked for in the
cache while another call downloads it, a broken download cannot be removed. `Published spec files`: the archive of `spec`;
what is read without error is one. -/
def Allowed (Published : Spec → List (Text × B) → Prop) (s : St B) : Op B → Prop
  | .crash => ∀ c ∈ s.calls, ¬ c.2.Writing
  | .move i resp fails => ∀ spec p, s.calls[i]? = some (spec, p) →
    (p = .cache → ∀ (j : Nat) spec' p', s.calls[j]? = some (spec', p') → subdir spec' = subdir spec → ¬ p'.Busy) ∧
    (p = .remove → fails = false) ∧
    (p = .request → ∀ files, resp = .archive files true → Published spec files)
  | _ => True

def Orderly (Published : Spec → List (Text × B) → Prop) : St B → List (Op B) → Prop
  | _, [] => True
  | s, op :: ops => Allowed Published s op ∧ Orderly Published (step s op) ops

/-- Nobody is downloading the package in `k`. -/
def Quiet (s : St B) (k : Text) : Prop := ∀ c ∈ s.calls, subdir c.1 = k → ¬ c.2.Busy

/-- `empty` tells the truth about the project directory: if something is below it, it is a directory that is not empty. -/
def Sees (d : Disk B) (project : Path) (empty : Bool) : Prop :=
  ∀ rel, rel ≠ [] → d (project ++ rel) ≠ none → d project = some .dir ∧ empty = false

/-- What is to be answered to a call while the disk works and nobody else is at it. -/
inductive Answer (s : St B) (spec : Spec) (resp : Resp B) : Result → Option (Dir B) → Prop where
  | data (d : Dir B) : s.data (subdir spec) = some d → Answer s spec resp .data (some d)
  | cache (d : Dir B) : s.data (subdir spec) = none → s.cache (subdir spec) = some d → Answer s spec resp .cache (some d)
  | unknown : s.data (subdir spec) = none → s.cache (subdir spec) = none → spec.ns ≠ "preview".toList →
      Answer s spec resp .notFound none
  | notFound : s.data (subdir spec) = none → s.cache (subdir spec) = none → spec.ns = "preview".toList → resp = .notFound →
      Answer s spec resp .notFound none
  | network : s.data (subdir spec) = none → s.cache (subdir spec) = none → spec.ns = "preview".toList → resp = .failed →
      Answer s spec resp .network none
  | archive (files : List (Text × B)) (d : Dir B) : s.data (subdir spec) = none → s.cache (subdir spec) = none →
      spec.ns = "preview".toList → resp = .archive files true → Holds d files → Answer s spec resp .cache (some d)
  | broken (files : List (Text × B)) : s.data (subdir spec) = none → s.cache (subdir spec) = none →
      spec.ns = "preview".toList → resp = .archive files false → Answer s spec resp .malformed none

/-- No file of the template is where another has a directory. -/
def TreeLike (files : List (Path × B)) : Prop := ∀ f ∈ files, ∀ g ∈ files, f.1 <+: g.1 → f.1 = g.1

end

/-- Two packages that differ at most in the version. -/
def Spec.Same (a b : Spec) : Prop := a.ns = b.ns ∧ a.name = b.name

end Tinymist.Packages
