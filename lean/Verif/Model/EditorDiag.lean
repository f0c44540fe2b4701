/-
Model of the diagnostics part of `crates/tinymist/src/actor/editor.rs` (EditorActor).
-/
namespace Tinymist.EditorDiag

abbrev Url := String
/-- `ProjectInsId`, crates/tinymist-project/src/compiler.rs (a newtype over a string). -/
abbrev Proj := String

/-- `HashMap` contents as an association list; only look-up, insertion, removal and iteration in
an unspecified order are used. -/
abbrev Assoc (κ ν : Type) := List (κ × ν)

/-- `HashMap::remove`. -/
def Assoc.erase {κ ν : Type} [DecidableEq κ] (l : Assoc κ ν) (k : κ) : Assoc κ ν :=
  l.filter (fun p => p.1 ≠ k)

/-- `HashMap::insert`: replaces an existing entry.  The position of the new entry in the iteration
order is unspecified in Rust; here it comes last. -/
def Assoc.put {κ ν : Type} [DecidableEq κ] (l : Assoc κ ν) (k : κ) (v : ν) : Assoc κ ν :=
  l.erase k ++ [(k, v)]

/-- `DiagnosticsMap = HashMap<Url, EcoVec<Diagnostic>>`. -/
abbrev DiagnosticsMap (D : Type) := Assoc Url (List D)

/-- `EditorActor`, editor.rs:38-53, plus the messages sent to the client (`sent`, oldest first).
`diagnostics u = []` models both an absent and an empty inner map. -/
structure State (D : Type) where
  diagnostics : Url → Assoc Proj (List D)
  affectMap : Proj → Option (List Url)
  sent : List (Url × List D)

/-- `EditorActor::new`, editor.rs:57-69. -/
def init (D : Type) : State D :=
  { diagnostics := fun _ => [], affectMap := fun _ => none, sent := [] }

/-- `publish_file`, editor.rs:158-187: the message holds the diagnostics of the other projects
followed by those of this project; then the table is updated.  `ScatterVec` (editor.rs:265-277) is
serialized as the concatenation. -/
def publishFile {D : Type} (s : State D) (id : Proj) (uri : Url) (next : Option (List D)) : State D :=
  let pathDiags := s.diagnostics uri
  let others := (pathDiags.filter (fun p => p.1 ≠ id)).flatMap (·.2)
  let mine := next.getD []
  let pathDiags' := match next with
    | some n => pathDiags.put id n
    | none => pathDiags.erase id
  { s with diagnostics := fun u => if u = uri then pathDiags' else s.diagnostics u,
           sent := s.sent ++ [(uri, others ++ mine)] }

/-- `contains_key`, editor.rs:146. -/
def hasKey {D : Type} (m : DiagnosticsMap D) (uri : Url) : Bool := m.any (fun p => p.1 == uri)

/-- `publish`, editor.rs:129-155. -/
def publish {D : Type} (s : State D) (id : Proj) (nextDiag : Option (DiagnosticsMap D)) : State D :=
  let affected := (s.affectMap id).getD []
  let s1 := { s with affectMap := fun p => if p = id then nextDiag.map (·.map (·.1)) else s.affectMap p }
  let s2 := affected.foldl (fun st uri =>
    if (nextDiag.map (hasKey · uri)).getD false then st else publishFile st id uri none) s1
  (nextDiag.getD []).foldl (fun st p => publishFile st id p.1 (some p.2)) s2

/-- A history of `EditorRequest::Diag` messages, editor.rs:88-95 (the revision in `ProjVersion` is
not used by the actor). -/
def run {D : Type} (s : State D) (reqs : List (Proj × Option (DiagnosticsMap D))) : State D :=
  reqs.foldl (fun st r => publish st r.1 r.2) s

end Tinymist.EditorDiag
