import Verif.Model.Packs

/-!
# What copying a package should do
-/

namespace Tinymist.Packs.Spec

variable {D : Type}

/-- A path that is only names, below where it starts. -/
def Plain (p : Path) (names : List Name) : Prop := p.absolute = false ∧ p.comps = names.map .name

/-- The contents that a key is last given in a list. -/
def Last {K D : Type} (es : List (K × D)) (k : K) (d : D) : Prop :=
  ∃ pre post, es = pre ++ (k, d) :: post ∧ ∀ e ∈ post, e.1 ≠ k

/-- A disk holds a file. Every place has at most one. -/
def Holds (disk : Disk D) (at_ : Loc) (d : D) : Prop := (at_, d) ∈ disk

/-- Every place has at most one file. -/
def Sound (disk : Disk D) : Prop := (disk.map (·.1)).Nodup

/-- A place in a directory. -/
def Inside (base at_ : Loc) : Prop := ∃ names, names ≠ [] ∧ at_ = base ++ names

/-- The whole name of an entry of an archive. -/
def named (e : Entry D) (p : Path) : Prop := (e.long = none ∧ p = e.header) ∨ e.long = some p

/-- A name with a dot in front. -/
def Dotted (n : Name) : Prop := ∃ rest, n = '.' :: rest

end Tinymist.Packs.Spec
