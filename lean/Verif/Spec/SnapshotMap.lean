import Verif.Model.SnapshotMap
/-! A map with snapshots, kept as copies. -/
namespace Tinymist.SnapshotMap
variable {K V : Type} [DecidableEq K]

/-- The current bindings and full copies of the bindings at each snapshot held, the newest in front. -/
structure Copies (K V : Type) where
  map : Map K V
  saved : List (Map K V)

/-- One use; `none` when there is no such snapshot. -/
def Copies.step (s : Copies K V) : Op K V → Option (Copies K V × Bool)
  | .insert k v => some (⟨fun x => if x = k then some v else s.map x, s.saved⟩, (s.map k).isNone)
  | .remove k => some (⟨fun x => if x = k then none else s.map x, s.saved⟩, (s.map k).isSome)
  | .clear => some (⟨fun _ => none, []⟩, false)
  | .snapshot => some (⟨s.map, s.map :: s.saved⟩, false)
  | .rollback n => s.saved[n]?.map fun m => (⟨m, s.saved.drop (n + 1)⟩, false)
  | .commit n => s.saved[n]?.map fun _ => (⟨s.map, s.saved.drop (n + 1)⟩, false)

def Copies.run : Copies K V → List (Op K V) → Option (Copies K V × List Bool)
  | s, [] => some (s, [])
  | s, op :: ops => (s.step op).bind fun (s', b) => (s'.run ops).map fun (s'', bs) => (s'', b :: bs)

end Tinymist.SnapshotMap
