/-!
# Projects: editor changes, compilations and their notifications

Models `ProjectCompiler` (`crates/tinymist-project/src/compiler.rs`) together with the language server's
handler (`CompileHandlerImpl` and `ProjectInsStateExt`, `crates/tinymist/src/project.rs`).

Threads: interrupts are processed one at a time by the main thread; every issued compilation is a job that
takes its steps (`jobCheck`, `jobSend`, `jobNotify`) at any time in between; finished compilations travel
back through `inbox` and may be delivered in any order. `upstream` holds the editor changes that were sent to
the file watcher and not yet acknowledged, in order (both channels are FIFO).

What the outside decides is an input: which file system events change something a project has read, whether
the clean check succeeds (modelled in `Verif.Model.Vfs`), whether the fonts changed.
A panic is the result `none`.

`uid`, `stamp`, `issued`, `verdicts` and `outs` are not in the program: they number project instances, count the
changes that reached a project, and record what happened.
-/
namespace Tinymist.Project

/-- `CompileReasons`, compiler.rs:263-272. -/
structure Reasons where
  mem : Bool
  fs : Bool
  entry : Bool
  deriving DecidableEq

namespace Reasons
def none : Reasons := ⟨false, false, false⟩
/-- `see`, compiler.rs:286-290. -/
def see (a b : Reasons) : Reasons := ⟨a.mem || b.mem, a.fs || b.fs, a.entry || b.entry⟩
/-- `any`, compiler.rs:293-295. -/
def any (a : Reasons) : Bool := a.mem || a.fs || a.entry
/-- `exclude`, compiler.rs:298-304. -/
def exclude (a b : Reasons) : Reasons := ⟨a.mem && !b.mem, a.fs && !b.fs, a.entry && !b.entry⟩
end Reasons

/-- A snapshot (`CompileSnapshot` in a `WorldComputeGraph`). -/
structure Snap where
  rev : Nat
  signal : Reasons
  stamp : Nat
  deriving DecidableEq

/-- A compilation and its result (`CompiledArtifact`). -/
structure Art where
  id : String
  uid : Nat
  snap : Snap
  deriving DecidableEq

/-- `MemoryEvent`, crates/tinymist-vfs/src/notify.rs:9-25. -/
structure MemEvent (Path C : Type) where
  sync : Bool
  removes : List Path
  inserts : List (Path × C)
  deriving DecidableEq

/-- `ProjectInsState` with `ProjectInsStateExt`, compiler.rs:734-758 and project.rs:226-232. -/
structure Proj (Path C : Type) where
  id : String
  uid : Nat
  rev : Nat
  stamp : Nat
  reason : Reasons
  inactive : Bool
  shadow : Path → Option C
  snap : Option Snap
  committed : Nat
  notified : Nat
  pending : Reasons
  emitted : Reasons
  isCompiling : Bool
  last : Option Art

/-- What a job has done so far: still compiling; status recorded (and whether it may be sent); status sent. -/
inductive Phase where
  | running
  | checked (pass : Bool)
  | sent
  deriving DecidableEq

structure Job where
  art : Art
  phase : Phase
  deriving DecidableEq

/-- What the editor, the exporter and the preview see. -/
inductive Out where
  | status (id : String) (rev : Nat)
  /-- `again` if it is the last compilation notified once more. -/
  | result (id : String) (rev : Nat) (signal : Reasons) (again : Bool)
  /-- the diagnostics of a project are withdrawn, because it was removed or not -/
  | cleared (id : String) (removed : Bool)
  deriving DecidableEq

/-- What the projects, the handler and the compiling threads share. -/
structure Shared where
  /-- `status_revision` and `notified_revision`, project.rs:396-397 -/
  statusRev : String → Nat
  notifiedRev : String → Nat
  jobs : List Job
  inbox : List Art
  outs : List Out
  issued : List Art
  verdicts : List (Nat × Nat)

structure Machine (Path C : Type) where
  primary : Proj Path C
  dedicates : List (Proj Path C)
  sh : Shared
  /-- `logical_tick`, `dirty_shadow_logical_tick` and `estimated_shadow_files`, compiler.rs:367-372 -/
  tick : Nat
  dirty : Nat
  estimated : List Path
  /-- the projects with an entry in `deps`, compiler.rs:379 -/
  deps : List String
  upstream : List (Nat × MemEvent Path C)
  nextUid : Nat

section
variable {Path C : Type} [DecidableEq Path]

def set {K A : Type} [DecidableEq K] (f : K → A) (k : K) (a : A) : K → A := fun x => if x = k then a else f x

/-- `apply_memory_changes`, compiler.rs:717-731. -/
def MemEvent.apply (sh : Path → Option C) (e : MemEvent Path C) : Path → Option C :=
  let sh := if e.sync then fun _ => none else sh
  let sh := e.removes.foldl (fun sh p => set sh p none) sh
  e.inserts.foldl (fun sh x => set sh x.1 (some x.2)) sh

/-- `create_project`, compiler.rs:433-454. `CompilerUniverse` starts at revision 1. -/
def newProj (id : String) (uid : Nat) (inactive : Bool) (shadow : Path → Option C) : Proj Path C :=
  { id := id, uid := uid, rev := 1, stamp := 0, reason := .none, inactive := inactive, shadow := shadow
    snap := none, committed := 0, notified := 0, pending := .none, emitted := .none, isCompiling := false, last := none }

/-- `ProjectCompiler::new`, compiler.rs:388-423. -/
def init (inactive : Bool) : Machine Path C :=
  { primary := newProj "primary" 0 inactive (fun _ => none), dedicates := []
    sh := ⟨fun _ => 0, fun _ => 0, [], [], [], [], []⟩, tick := 1, dirty := 0, estimated := [], deps := [], upstream := []
    nextUid := 1 }

def Machine.projects (m : Machine Path C) : List (Proj Path C) := m.primary :: m.dedicates

/-- `find_project` and what is done with the project it finds, compiler.rs:457-467: panics if there is no such
project. -/
def Machine.onProject (m : Machine Path C) (id : String)
    (f : Proj Path C → Shared × Proj Path C × List String) : Option (Machine Path C) :=
  if id = m.primary.id then
    let r := f m.primary
    some { m with sh := r.1, primary := r.2.1, deps := r.2.2 }
  else
    match m.dedicates.findIdx? (fun p => p.id = id) with
    | none => none
    | some i =>
      match m.dedicates[i]? with
      | none => none
      | some p =>
        let r := f p
        some { m with sh := r.1, dedicates := m.dedicates.set i r.2.1, deps := r.2.2 }

def Machine.mapAll (m : Machine Path C) (f : Proj Path C → Proj Path C) : Machine Path C :=
  { m with primary := f m.primary, dedicates := m.dedicates.map f }

/-- A change of what the project compiles: `increment_revision`, crates/tinymist-world/src/world.rs:172-182,
346-371. -/
def Proj.bump (p : Proj Path C) : Proj Path C := { p with rev := p.rev + 1, stamp := p.stamp + 1 }

/-- `ProjectInsState::snapshot` and `make_snapshot`, compiler.rs:763-787. -/
def Proj.snapshot (p : Proj Path C) : Snap :=
  match p.snap with
  | some s => if s.rev = p.rev then s else ⟨p.rev, p.reason, p.stamp⟩
  | none => ⟨p.rev, p.reason, p.stamp⟩

/-- `CompileHandlerImpl::status` for a revision, project.rs:549-558: records the revision under the lock,
says whether the status goes out. -/
def Shared.statusCheck (s : Shared) (id : String) (rev : Nat) : Shared × Bool :=
  if s.statusRev id > rev then (s, false) else ({ s with statusRev := set s.statusRev id rev }, true)

/-- `CompileHandlerImpl::status` on the main thread, project.rs:549-581. -/
def Shared.status (s : Shared) (id : String) (rev : Nat) (suspend : Bool) : Shared :=
  let r := s.statusCheck id rev
  if r.2 then { r.1 with outs := r.1.outs ++ ((if suspend then [.cleared id false] else []) ++ [.status id rev]) } else r.1

/-- `notify_compile`, project.rs:597-634. -/
def Shared.notify (s : Shared) (a : Art) (again : Bool) : Shared :=
  if s.notifiedRev a.id ≥ a.snap.rev then s
  else
    { s with notifiedRev := set s.notifiedRev a.id a.snap.rev, inbox := s.inbox ++ [a]
             outs := s.outs ++ [.result a.id a.snap.rev a.snap.signal again] }

/-- `emit_pending_reasons`, project.rs:256-281. -/
def emitPending (s : Shared) (p : Proj Path C) : Shared × Proj Path C :=
  match p.last with
  | none => (s, p)
  | some a =>
    if a.snap.rev ≠ p.rev then (s, p)
    else
      let pend := p.pending.exclude p.emitted
      if !pend.any then (s, p)
      else
        (s.notify { a with snap := { a.snap with signal := pend } } true,
          { p with emitted := p.emitted.see p.pending, pending := .none })

/-- `ProjectInsStateExt::compiled`, project.rs:237-253. -/
def extCompiled (s : Shared) (p : Proj Path C) (a : Art) : Shared × Proj Path C :=
  if p.notified ≥ a.snap.rev then (s, p)
  else emitPending s { p with notified := a.snap.rev, isCompiling := false, last := some a }

/-- `process_compile`, compiler.rs:874-918: commits a result unless a newer one was. -/
def Proj.commit (p : Proj Path C) (a : Art) : Proj Path C :=
  if p.committed ≥ a.snap.rev then p else { p with committed := a.snap.rev }

/-- `may_compile`, compiler.rs:811-823, and the start of `run_compile`, 826-845. -/
def mayCompile (s : Shared) (p : Proj Path C) : Shared × Proj Path C :=
  if !p.reason.any || p.inactive then (s, p)
  else
    let snap := p.snapshot
    let a : Art := ⟨p.id, p.uid, snap⟩
    let s := s.status p.id snap.rev false
    ({ s with jobs := s.jobs ++ [⟨a, .running⟩], issued := s.issued ++ [a] },
      { p with snap := some snap, reason := .none, isCompiling := true })

/-- The body of the loop of `on_any_compile_reason`, project.rs:489-547. `clean` is the outcome of
`is_clean_compile`. -/
def anyReason (clean : Bool) (s : Shared) (p : Proj Path C) : Shared × Proj Path C :=
  if p.isCompiling then (s, p)
  else
    let vfsSub := p.reason.any && !(p.reason.exclude ⟨true, true, false⟩).any
    if vfsSub && p.last.isSome && clean then
      emitPending { s with verdicts := s.verdicts ++ [(p.uid, p.stamp)] }
        { p with pending := p.pending.see p.reason, reason := .none }
    else mayCompile s { p with pending := .none, emitted := p.reason }

/-- Works on projects one after another. -/
def eachProj (f : Shared → Proj Path C → Shared × Proj Path C) (s : Shared) :
    List (Proj Path C) → Shared × List (Proj Path C)
  | [] => (s, [])
  | p :: ps =>
    let r := f s p
    let r' := eachProj f r.1 ps
    (r'.1, r.2 :: r'.2)

/-- `on_any_compile_reason`, project.rs:489-547. -/
def onAny (clean : String → Bool) (m : Machine Path C) : Machine Path C :=
  let r := anyReason (clean m.primary.id) m.sh m.primary
  let r' := eachProj (fun s p => anyReason (clean p.id) s p) r.1 m.dedicates
  { m with sh := r'.1, primary := r.2, dedicates := r'.2 }

/-- `remove_dedicates`, compiler.rs:497-514, with `notify_removed`, project.rs:583-595. -/
def removeDedicates (m : Machine Path C) (id : String) : Machine Path C :=
  match m.dedicates.findIdx? (fun p => p.id = id) with
  | none => m
  | some i =>
    { m with
      sh := { m.sh with notifiedRev := set m.sh.notifiedRev id 0, outs := m.sh.outs ++ [.cleared id true] }
      deps := m.deps.filter (· ≠ id)
      dedicates := m.dedicates.eraseIdx i }

/-- `restart_dedicate`, compiler.rs:475-495. -/
def restart (m : Machine Path C) (group : String) (inactive : Bool) : Machine Path C :=
  let p := newProj group m.nextUid inactive m.primary.shadow
  let p := { p with reason := p.reason.see ⟨false, false, true⟩, stamp := 1 }
  let m := removeDedicates m group
  { m with dedicates := m.dedicates ++ [p], nextUid := m.nextUid + 1 }

/-- compiler.rs:606-621: the files an editor change gives back to the disk, and the files in memory after it. -/
def MemEvent.invalidates (e : MemEvent Path C) (estimated : List Path) : List Path :=
  ((if e.sync then estimated else []) ++ e.removes).filter (fun p => p ∉ e.inserts.map (·.1))

def MemEvent.estimate (e : MemEvent Path C) (estimated : List Path) : List Path :=
  ((if e.sync then [] else estimated).filter (fun p => p ∉ e.removes)) ++ e.inserts.map (·.1)

/-- An editor change reaches one project, compiler.rs:627-637. Mapping or unmapping a file always counts as a
change; a reset counts if it concerns a file that was read (`resetChanges`). -/
def Proj.memory (resetChanges : Bool) (e : MemEvent Path C) (p : Proj Path C) : Proj Path C :=
  let p := { p with shadow := e.apply p.shadow }
  if !e.removes.isEmpty || !e.inserts.isEmpty || (e.sync && resetChanges) then
    { p.bump with reason := p.reason.see ⟨true, false, false⟩ }
  else p

/-- A file system event reaches one project, compiler.rs:664-686, with the delayed editor change it
acknowledges. -/
def Proj.fsEvent (delayed : Option (MemEvent Path C)) (changes : Bool) (p : Proj Path C) : Proj Path C :=
  let p' := match delayed with
    | some e => { p with shadow := e.apply p.shadow }
    | none => p
  if changes || (match delayed with | some e => !e.removes.isEmpty || !e.inserts.isEmpty | none => false) then
    { p'.bump with reason := p.reason.see ⟨false, true, false⟩ }
  else p'

inductive Op (Path C : Type) where
  | compile (id : String)
  | settle (id : String)
  /-- a result is delivered -/
  | compiled (i : Nat)
  /-- new inputs, or a new entry, inactive or not -/
  | changeTask (id : String) (inputs : Bool) (entry : Option Bool)
  | font (changed : Bool)
  | memory (e : MemEvent Path C) (resetChanges : String → Bool)
  /-- a report of the watcher, `ack` if it answers an editor change -/
  | fs (ack : Bool) (changes : String → Bool)
  /-- a query takes a snapshot of the primary project -/
  | snapshot
  | restart (group : String) (inactive : Bool)
  | jobCheck (i : Nat)
  | jobSend (i : Nat)
  | jobNotify (i : Nat)

/-- `process_inner`, compiler.rs:524-690, preceded by `ext.compiled` (`do_interrupt`, project.rs:309-319).
The second component: whether `on_any_compile_reason` follows. -/
def interrupt (m : Machine Path C) : Op Path C → Option (Machine Path C × Bool)
  | .compile id =>
    (m.onProject id fun p => (m.sh, { p.bump with reason := p.reason.see ⟨false, false, true⟩ }, m.deps)).map (·, true)
  | .settle id => some (removeDedicates m id, true)
  | .compiled i =>
    match m.sh.inbox[i]? with
    | none => some (m, false)
    | some a =>
      let sh := { m.sh with inbox := m.sh.inbox.eraseIdx i }
      (m.onProject a.id fun p =>
        let r := extCompiled sh p a
        (r.1, r.2.commit a, if r.2.committed ≥ a.snap.rev then m.deps else a.id :: m.deps)).map (·, true)
  | .changeTask id inputs entry =>
    let f : Proj Path C → Proj Path C := fun p =>
      let p := if inputs || entry.isSome then p.bump else p
      { p with inactive := entry.getD p.inactive, reason := p.reason.see ⟨false, false, true⟩ }
    (m.onProject id fun p =>
      (if entry = some true then m.sh.status id (f p).rev true else m.sh, f p, m.deps)).map (·, true)
  | .font changed =>
    some (if changed then m.mapAll fun p => { p.bump with reason := p.reason.see ⟨false, false, true⟩ } else m, true)
  | .memory e resetChanges =>
    let files := e.invalidates m.estimated
    let m := { m with estimated := e.estimate m.estimated }
    if files.isEmpty && m.dirty == 0 then some (m.mapAll fun p => p.memory (resetChanges p.id) e, true)
    else some ({ m with dirty := m.tick, upstream := m.upstream ++ [(m.tick, e)] }, true)
  | .fs ack changes =>
    match ack, m.upstream with
    | true, [] => some (m, false)
    | true, (t, e) :: rest =>
      let m := { m with upstream := rest, dirty := if t = m.dirty then 0 else m.dirty }
      some (m.mapAll fun p => p.fsEvent (some e) (changes p.id), true)
    | false, _ => some (m.mapAll fun p => p.fsEvent none (changes p.id), true)
  | .snapshot => some ({ m with primary := { m.primary with snap := some m.primary.snapshot } }, false)
  | .restart group inactive => some (restart m group inactive, false)
  | .jobCheck i =>
    match m.sh.jobs[i]? with
    | some ⟨a, .running⟩ =>
      let r := m.sh.statusCheck a.id a.snap.rev
      let sh := { r.1 with jobs := r.1.jobs.set i ⟨a, .checked r.2⟩ }
      some ({ m with sh := sh }, false)
    | _ => some (m, false)
  | .jobSend i =>
    match m.sh.jobs[i]? with
    | some ⟨a, .checked pass⟩ =>
      let sh := { m.sh with
        jobs := m.sh.jobs.set i ⟨a, .sent⟩
        outs := if pass then m.sh.outs ++ [.status a.id a.snap.rev] else m.sh.outs }
      some ({ m with sh := sh }, false)
    | _ => some (m, false)
  | .jobNotify i =>
    match m.sh.jobs[i]? with
    | some ⟨a, .sent⟩ =>
      let sh := { (m.sh.notify a false) with jobs := m.sh.jobs.eraseIdx i }
      some ({ m with sh := sh }, false)
    | _ => some (m, false)

/-- `process`, compiler.rs:517-522. -/
def step (clean : String → Bool) (m : Machine Path C) (op : Op Path C) : Option (Machine Path C) :=
  (interrupt m op).map fun r => if r.2 then onAny clean r.1 else r.1

/-- A history: each step with the outcomes of the clean check. -/
def run (m : Machine Path C) : List (Op Path C × (String → Bool)) → Option (Machine Path C)
  | [] => some m
  | (op, clean) :: ops => (step clean m op).bind fun m => run m ops

end
end Tinymist.Project
