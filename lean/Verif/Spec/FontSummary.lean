import Verif.Model.FontSummary

/-!
# What a summary of a font family should say
-/

namespace Tinymist.FontSummary.Spec

/-- The least weight. -/
def Least (l : List Variant) (w : Nat) : Prop := (∃ v ∈ l, v.weight = w) ∧ ∀ v ∈ l, w ≤ v.weight

/-- The greatest weight. -/
def Greatest (l : List Variant) (w : Nat) : Prop := (∃ v ∈ l, v.weight = w) ∧ ∀ v ∈ l, v.weight ≤ w

/-- The text for a number of variants, the least and the greatest weight, and whether there are italics. -/
def text (count least greatest : Nat) (italics : Bool) : String :=
  toString count ++ " variant" ++ (if count = 1 then "" else "s") ++ "." ++
    (if least = greatest then " Weight " ++ toString least ++ "." else " Weights " ++ toString least ++ "–" ++ toString greatest ++ ".") ++
    (if italics then " Has italics." else "")

open Classical in
/-- The last style of a family: oblique comes behind italic, and italic behind normal. -/
noncomputable def lastStyle (l : List Variant) : Style :=
  if ∃ v ∈ l, v.style = .oblique then .oblique else if ∃ v ∈ l, v.style = .italic then .italic else .normal

end Tinymist.FontSummary.Spec
