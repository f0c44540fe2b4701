/-! The test runner: `tinymist test`, crates/tinymist/src/tool/testing.rs. Compiling, rendering and calling test functions are
inputs: each case carries what came of it. The runner works on all cases at once (`par_iter`); a case is a program of atomic
steps on the file system and on the state the cases share, and a schedule says which case moves next and whether the
system call it makes fails. A crash is the end of a schedule. -/
namespace Tinymist.Testing

abbrev Name := List Char

inductive Kind where
  | paged
  | html
deriving DecidableEq, Repr

/-- A file below `refs`: the directory is the kind. -/
structure File where
  kind : Kind
  name : Name
deriving DecidableEq, Repr

/-- `Path::file_stem` of a file name, as `with_extension` uses it: everything before the last dot, unless there is no dot or
only a leading one. -/
def stem (n : Name) : Name :=
  match n.reverse.dropWhile (· ≠ '.') with
  | [] => n
  | _ :: b => if b.isEmpty then n else b.reverse

/-- The extension of a reference, testing.rs:521. -/
def ext : Kind → Name
  | .paged => ['.', 'p', 'n', 'g']
  | .html => ['.', 'h', 't', 'm', 'l']

/-- The name of an example: its file name without the extension, testing.rs:443-444. -/
def exampleName (fileName : Name) : Name := stem fileName

/-- The paths of `update_example`, testing.rs:521-525. The extension of the *name* is replaced. -/
def refFile (k : Kind) (e : Name) : File := ⟨k, stem e ++ ext k⟩
def tmpFile (k : Kind) (e : Name) : File := ⟨k, stem e ++ ['.', 't', 'm', 'p'] ++ ext k⟩
def hashFile (k : Kind) (e : Name) : File := ⟨k, stem e ++ ['.', 'h', 'a', 's', 'h']⟩

/-- What is printed and put into the dashboard, testing.rs:332-360, 545-548. `ex`: an example rather than a test. -/
inductive Ev where
  | running (ex : Bool) (n : Name)
  | failed (ex : Bool) (n : Name)
  | passed (ex : Bool) (n : Name)
  | mismatch (n : Name)
deriving DecidableEq, Repr

/-- The state the cases share: the file system and the fields of `TestRunner`, testing.rs:311-318. Of a diagnostic only
whether it is an error is kept. -/
structure St (B : Type) where
  fs : File → Option B
  names : List Name
  failed : Bool
  diags : List Bool
  log : List Ev

/-- A case under way. `next` sees the state before the step; the flag says whether the system call fails. -/
inductive Prog (B : Type) where
  | done
  | act (upd : St B → Bool → St B) (next : St B → Bool → Prog B)

section
variable {B : Type} [DecidableEq B]

def St.write (s : St B) (f : File) (b : Option B) : St B := { s with fs := fun x => if x = f then b else s.fs x }

/-- A step that cannot fail. -/
def say (f : St B → St B) (p : Prog B) : Prog B := .act (fun s _ => f s) fun _ _ => p

/-- `mark_failed`, testing.rs:343-347; `mark_passed`, 349-352; `running`, 338-341. Taken as one step. -/
def St.fail (ex : Bool) (n : Name) (s : St B) : St B := { s with failed := true, log := s.log ++ [.failed ex n] }
def St.pass (ex : Bool) (n : Name) (s : St B) : St B := { s with log := s.log ++ [.passed ex n] }
def St.start (ex : Bool) (n : Name) (s : St B) : St B := { s with log := s.log ++ [.running ex n] }
def St.differs (n : Name) (s : St B) : St B := { s with log := s.log ++ [.mismatch n] }
def St.diag (error : Bool) (s : St B) : St B := { s with diags := s.diags ++ [error] }

/-- The end of `update_example`, testing.rs:558-566: creates the directory, writes the reference, then its hash. Writing is
atomic (`write_atomic`). -/
def writeRef (hash : B → B) (e : Name) (k : Kind) (d : B) (cont : Bool → Prog B) : Prog B :=
  .act (fun s _ => s) fun _ f =>
    if f then cont true
    else
      .act (fun s f => if f then s else s.write (refFile k e) (some d)) fun _ f =>
        if f then cont true
        else
          .act (fun s f => if f then s else s.write (hashFile k e) (some (hash d))) fun _ f => cont f

/-- testing.rs:554-566: removes the file of an earlier mismatch. -/
def settle (hash : B → B) (e : Name) (k : Kind) (d : B) (equal : Bool) (cont : Bool → Prog B) : Prog B :=
  .act (fun s _ => s) fun s f =>
    if f then cont true
    else if (s.fs (tmpFile k e)).isSome then
      .act (fun s f => if f then s else s.write (tmpFile k e) none) fun s f =>
        if f || (s.fs (tmpFile k e)).isNone then cont true
        else if equal then cont false else writeRef hash e k d cont
    else if equal then cont false
    else writeRef hash e k d cont

/-- testing.rs:540-551: the outcome differs from the reference. -/
def reportMismatch (e : Name) (k : Kind) (d : B) (cont : Bool → Prog B) : Prog B :=
  .act (fun s f => if f then s else s.write (tmpFile k e) (some d)) fun _ f =>
    if f then cont true
    else say (St.fail true e) (say (St.differs e) (cont false))

/-- `update_example`, testing.rs:520-567. `hash` is `siphash128_13:` and the hash of the output. `cont` goes on, told whether
there was an error. -/
def updateExample (hash : B → B) (update : Bool) (e : Name) (k : Kind) (d : B) (cont : Bool → Prog B) : Prog B :=
  .act (fun s _ => s) fun s f =>
    if f then cont true
    else if (s.fs (hashFile k e)).isNone then settle hash e k d false cont
    else
      .act (fun s _ => s) fun s f =>
        match s.fs (hashFile k e) with
        | none => cont true
        | some h =>
          if f then cont true
          else if h = hash d then settle hash e k d true cont
          else if update then settle hash e k d false cont
          else reportMismatch e k d cont

/-- `check_result`, testing.rs:511-518, after `update_example` or a failure to render. -/
def checkResult (e : Name) (cont : Bool → Prog B) (err : Bool) : Prog B :=
  if err then say (St.fail true e) (cont true) else cont false

/-- `render_paged`, testing.rs:484-494, and `render_html`, 496-509, for a document; `none`: it cannot be rendered, which for html is
also a diagnostic. -/
def render (hash : B → B) (update : Bool) (e : Name) (k : Kind) (out : Option B) (cont : Bool → Prog B) : Prog B :=
  match out with
  | some d => updateExample hash update e k d (checkResult e cont)
  | none =>
    match k with
    | .paged => checkResult e cont true
    | .html => say (St.diag true) (checkResult e cont true)

/-- An example with what came of it. `paged`: `none` if it does not compile, `some none` if it cannot be rendered, else the
image. `html`: `none` if the document does not ask for it (`can_html`, 569-577), else warnings and outcome as for
`paged`. -/
structure Example (B : Type) where
  name : Name
  warns : Bool
  paged : Option (Option B)
  html : Option (Bool × Option (Option B))

/-- `build_example`, testing.rs:469-482. -/
def build (warns error : Bool) (p : Prog B) : Prog B :=
  let p := if error then say (St.diag true) p else p
  if warns then say (St.diag false) p else p

/-- testing.rs:462-466. -/
def finish (e : Name) (hasErr : Bool) : Prog B :=
  if hasErr then say (St.fail true e) .done else say (St.pass true e) .done

/-- testing.rs:457-466. -/
def runHtml (hash : B → B) (update : Bool) (x : Example B) (hasErr : Bool) : Prog B :=
  match x.html with
  | none => finish x.name hasErr
  | some (w, none) => build w true (finish x.name true)
  | some (w, some out) => build w false (render hash update x.name .html out fun e => finish x.name (hasErr || e))

/-- `run_example`, testing.rs:442-467. -/
def runExample (hash : B → B) (update : Bool) (x : Example B) : Prog B :=
  say (St.start true x.name)
    (.act (fun s _ => if x.name ∈ s.names then s else { s with names := x.name :: s.names }) fun s _ =>
      if x.name ∈ s.names then say (St.fail true x.name) .done
      else
        match x.paged with
        | none => build x.warns true (finish x.name true)
        | some out => build x.warns false (render hash update x.name .paged out (runHtml hash update x)))

/-- Whether `needle` occurs in the text: `str::contains`. -/
def contains (needle : Name) : Name → Bool
  | [] => needle.isEmpty
  | c :: cs => needle.isPrefixOf (c :: cs) || contains needle cs

def panicWord : Name := ['p', 'a', 'n', 'i', 'c']

/-- A case with what came of it: `err` holds the messages of the errors a call ended with. `exampleFn`: a function that
includes a file; `none` if the file is not found. -/
inductive Case (B : Type) where
  | test (n : Name) (err : Option (List Name))
  | panic (n : Name) (err : Option (List Name))
  | exampleFn (n : Name) (x : Option (Example B))
  | file (x : Example B)

/-- The body of the loop of `run`, testing.rs:372-422. -/
def runCase (hash : B → B) (update : Bool) : Case B → Prog B
  | .test n none => say (St.start false n) (say (St.pass false n) .done)
  | .test n (some _) => say (St.start false n) (say (St.diag true) (say (St.fail false n) .done))
  | .panic n none => say (St.start false n) (say (St.fail false n) .done)
  | .panic n (some msgs) =>
    say (St.start false n)
      (if msgs.all (contains panicWord) then say (St.pass false n) .done
       else say (St.diag true) (say (St.fail false n) .done))
  | .exampleFn n none => say (St.fail false n) .done
  | .exampleFn _ (some x) => runExample hash update x
  | .file x => runExample hash update x

/-- One step of case `i`. -/
def step (i : Nat) (fails : Bool) (c : List (Prog B) × St B) : List (Prog B) × St B :=
  match c.1[i]? with
  | some (.act u n) => (c.1.set i (n c.2 fails), u c.2 fails)
  | _ => c

def run (sched : List (Nat × Bool)) (c : List (Prog B) × St B) : List (Prog B) × St B :=
  sched.foldl (fun c x => step x.1 x.2 c) c

/-- `TestRunner::new`, testing.rs:321-330, on a file system. -/
def init (fs : File → Option B) : St B := ⟨fs, [], false, [], []⟩

/-- `TestRunner::run`, testing.rs:363-440: all cases, up to some point. -/
def runAll (hash : B → B) (update : Bool) (cases : List (Case B)) (fs : File → Option B) (sched : List (Nat × Bool)) :
    List (Prog B) × St B :=
  run sched (cases.map (runCase hash update), init fs)

/-- The end of `run`, testing.rs:424-440: `none` is an error. Printing the warnings is taken to succeed. -/
def verdict (s : St B) : Option Bool := if s.diags.any id then none else some (!s.failed)

/-- The exit code of `test_main` without `--watch`, testing.rs:162-167, and the last lines of `test_once`, 272-278. -/
def exitCode (s : St B) : Nat := if verdict s = some true then 0 else 1

end

/-! Watching, testing.rs:170-231. -/

/-- The configuration the loop and the console share; `runs`: whether each run so far updates the references. -/
structure Watch where
  update : Bool
  runs : List Bool

inductive Key where
  /-- the console reads `u`, 222-226 -/
  | u
  /-- the console reads `r` or something else, 219-221, 227-230 -/
  | other
  /-- a compilation ends and the tests run, 180-207 -/
  | compiled

def Watch.step (w : Watch) : Key → Watch
  | .u => { w with update := true }
  | .other => w
  | .compiled => { update := false, runs := w.runs ++ [w.update] }

def Watch.run (update : Bool) (l : List Key) : Watch := l.foldl Watch.step ⟨update, []⟩

end Tinymist.Testing
