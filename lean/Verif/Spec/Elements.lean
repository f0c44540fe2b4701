import Verif.Model.Elements

/-!
# What should be expected of an element
-/

namespace Tinymist.Elements

variable {α : Type}

/-- A type may be one of these: one of a union, a bound, the type of a parameter. `low` tells whether by an odd number of lower bounds. -/
inductive Among : Ty α → Bool → Ty α → Prop where
  | self {t} : Among t false t
  | param {t low s} : Among t low s → Among (.param t) low s
  | union {t ts low s} : t ∈ ts → Among t low s → Among (.union ts) low s
  | upper {t ubs lbs low s} : t ∈ ubs → Among t low s → Among (.bounds ubs lbs) low s
  | lower {t ubs lbs low s} : t ∈ lbs → Among t low s → Among (.bounds ubs lbs) (!low) s

/-- What is written around may be an array. -/
def MayBeArray : Around → Prop
  | .dict => False
  | _ => True

/-- What is written around may be a dictionary: it is one, or has no items yet. -/
def MayBeDict : Around → Prop
  | .dict => True
  | .parenthesized => True
  | .array n => n = 0
  | .other => False

/-- The fields of a dictionary, or of what one may stand for. -/
inductive HasFields (recordOf : Builtin → List (Text × α)) : Ty α → List (Text × α) → Prop where
  | dict {fs} : HasFields recordOf (.dict fs) fs
  | builtin {b} : HasFields recordOf (.builtin b) (recordOf b)

/-- What a type wants at a place. -/
inductive Wants (recordOf : Builtin → List (Text × α)) (a : Around) : Target → Ty α → Expected α → Prop where
  /-- what arrays consist of -/
  | elem {sp n t} : MayBeArray a → Wants recordOf a (.positional sp n false) (.array t) (.type t)
  /-- what a tuple has at this index -/
  | item {sp n ts t} : MayBeArray a → ts[n]? = some t → Wants recordOf a (.positional sp n false) (.tuple ts) (.type t)
  /-- any field where no name is given -/
  | field {sp n s fs x t} : MayBeDict a → HasFields recordOf s fs → (x, t) ∈ fs → Wants recordOf a (.positional sp n false) s (.field x t)
  /-- the type of the field of the name that is given -/
  | value {s fs x t} : MayBeDict a → HasFields recordOf s fs → (x, t) ∈ fs → Wants recordOf a (.named (some x)) s (.type t)

/-- No two fields have the same name. -/
def Distinct (fs : List (Text × α)) : Prop := (fs.map Prod.fst).Nodup

end Tinymist.Elements
