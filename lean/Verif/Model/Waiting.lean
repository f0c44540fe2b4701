/-!
# Analyses made at the same time

Model of what threads that analyse files of one revision wait for: `IncrCacheMap::compute` (crates/tinymist-query/src/analysis/global.rs
1057-1092) lets one thread compute the analysis of a file and the others wait for it (`OnceLock::get_or_init`); `expr_of`
(crates/tinymist-query/src/syntax/expr.rs 30-142) needs the exports of the files a file imports (`exports_of`, global.rs 742-752), except those
that the thread is analysing itself (`ExprRoute`). What is computed is in `RevCache`.
-/

namespace Tinymist.Waiting

abbrev Fid := Nat

inductive Status where
  | todo | busy | done
  deriving DecidableEq, Repr

/-- A file being analysed by a thread and the imports it still has to look at; at the bottom, the files that the thread was asked for. -/
structure Frame where
  fid : Option Fid
  rest : List Fid
  deriving DecidableEq, Repr

/-- The frames of the threads, the innermost first, and which files are analysed. -/
structure St where
  threads : List (List Frame)
  status : Fid → Status

/-- The threads begin; each is asked for some files. -/
def init (asks : List (List Fid)) : St := ⟨asks.map fun fs => [⟨none, fs⟩], fun _ => .todo⟩

def set (status : Fid → Status) (f : Fid) (s : Status) : Fid → Status := fun g => if g = f then s else status g

/-- Whether the thread is analysing the file: `route.get` (global.rs 747-749). -/
def onRoute (g : Fid) (stack : List Frame) : Bool := stack.any fun x => x.fid = some g

/-- One step of a thread; `none` if it is finished or has to wait. -/
def advance (imports : Fid → List Fid) (status : Fid → Status) : List Frame → Option (List Frame × (Fid → Status))
  | [] => none
  | ⟨none, []⟩ :: below => some (below, status)
  | ⟨some f, []⟩ :: below => some (below, set status f .done)
  | ⟨fid, g :: gs⟩ :: below =>
    if onRoute g (⟨fid, g :: gs⟩ :: below) then some (⟨fid, gs⟩ :: below, status)
    else
      match status g with
      | .done => some (⟨fid, gs⟩ :: below, status)
      | .busy => none
      | .todo => some (⟨some g, imports g⟩ :: ⟨fid, gs⟩ :: below, set status g .busy)

/-- One step of the thread of this number. -/
def step (imports : Fid → List Fid) (st : St) (i : Nat) : Option St :=
  match st.threads[i]? with
  | none => none
  | some stack => (advance imports st.status stack).map fun r => ⟨st.threads.set i r.1, r.2⟩

/-- The threads run in this order; steps that are not possible are left out. -/
def run (imports : Fid → List Fid) (st : St) (order : List Nat) : St := order.foldl (fun st i => (step imports st i).getD st) st

end Tinymist.Waiting
