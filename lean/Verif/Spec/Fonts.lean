import Verif.Model.Fonts
/-!
# What fonts there are

Uses only the data types of `Model/Fonts`.
-/
namespace Tinymist.Fonts
variable {Data Info Font Name : Type}

/-- A font that was found: where, the content it was found in and its place therein, and what it is. -/
structure Found (Data Info : Type) where
  source : Source
  data : Data
  index : Nat
  info : Info

/-- The faces to be used, the most preferred first: those of the user in the order of the paths, then those of
the system. -/
def faces (o : Opts Data) : List (Nat × Nat) :=
  (o.userPaths.map (·.2)).flatten ++ (if o.noSystem then [] else o.systemFaces)

/-- A face whose file can be read, as a font. -/
def faceFont (R : Reader Data Info Font Name) (disk : Nat → Option Data) (face : Nat × Nat) :
    Option (Found Data Info) := do
  let data ← disk face.1
  let info ← R.info data face.2
  some ⟨.file face.1, data, face.2, info⟩

/-- The fonts in a piece of memory: those of a collection, or the only one. -/
def memoryFonts (R : Reader Data Info Font Name) (data : Data) : List (Found Data Info) :=
  (List.range ((R.count data).getD 1)).filterMap fun i => (R.info data i).map fun info => ⟨.memory, data, i, info⟩

/-- All fonts, the most preferred first. -/
def available (R : Reader Data Info Font Name) (disk : Nat → Option Data) (o : Opts Data) :
    List (Found Data Info) :=
  (faces o).filterMap (faceFont R disk) ++ o.embedded.flatMap (memoryFonts R)

/-- The files the fonts are in. -/
def files (o : Opts Data) : List Nat := (faces o).map (·.1)

end Tinymist.Fonts
