import Verif.Model.TokenDelta
/-
Model of `crates/tinymist-query/src/adt/revision.rs` (RevisionManager) and of
`SemanticTokenCache`/`SemanticTokenContext` in
`crates/tinymist-query/src/analysis/semantic_tokens.rs:40-115`, together with the places that use
them: `Analysis::lock_revision`, `Analysis::clear_cache` and `SharedContext::cached_tokens`
(`crates/tinymist-query/src/analysis/global.rs:131-163, 438-450`), and the two requests
(`semantic_tokens_full.rs:29-37`, `semantic_tokens_delta.rs:30-51`).
-/
namespace Tinymist.TokenCache
open Tinymist.TokenDelta

abbrev Path := String
abbrev Toks := List SemanticToken

/-- `RevisionSlot<OnceLock<SemanticTokens>>`, revision.rs:20-23.  Slots are shared through `Arc`,
so they live in a heap and are denoted by a reference.  `path` is ghost: the path of the manager
that created the slot. -/
structure Slot where
  path : Path
  revision : Nat
  data : Option Toks

/-- `RevisionManager`, revision.rs:39-43.  `locked` is the hash map from estimated revision to its
lock count; `slots` lists (revision, reference). -/
structure Manager where
  estimated : Nat
  locked : List (Nat × Nat)
  slots : List (Nat × Nat)

/-- `RevisionManager::default`, revision.rs:45-53. -/
def Manager.empty : Manager := { estimated := 0, locked := [], slots := [] }

/-- The lock count of an estimated revision. -/
def lockCount (locked : List (Nat × Nat)) (e : Nat) : Option Nat := locked.lookup e

/-- `*self.locked.entry(estimated).or_default() += 1`, revision.rs:72. -/
def incrLock (locked : List (Nat × Nat)) (e : Nat) : List (Nat × Nat) :=
  match locked with
  | [] => [(e, 1)]
  | (k, n) :: rest => if k = e then (k, n + 1) :: rest else (k, n) :: incrLock rest e

/-- `*revision_cnt -= 1` and `self.locked.remove(&rev)` when it reaches zero, revision.rs:108-117.
Returns `none` when the revision is not locked (the code panics). The boolean tells whether the
entry was removed. -/
def decrLock (locked : List (Nat × Nat)) (e : Nat) : Option (List (Nat × Nat) × Bool) :=
  match locked with
  | [] => none
  | (k, n) :: rest =>
    if k = e then
      (if n - 1 ≠ 0 then some ((k, n - 1) :: rest, false) else some (rest, true))
    else
      match decrLock rest e with
      | none => none
      | some (r, b) => some ((k, n) :: r, b)

/-- The `filter`/`reduce` at revision.rs:85-89: the slot with the largest revision not above
`rev`, the later one among equals. -/
def slotBase (slots : List (Nat × Nat)) (rev : Nat) : Option (Nat × Nat) :=
  (slots.filter (fun s => s.1 ≤ rev)).foldl
    (fun acc y => match acc with
      | none => some y
      | some x => some (if x.1 > y.1 then x else y)) none

/-- `SemanticTokenContext`, semantic_tokens.rs:96-102.  `quoted` remembers the previous id quoted
by the request (`None` for a full request) and `responded` whether the request has been answered:
`request` consumes the request, so it runs at most once. -/
structure Ctx where
  path : Path
  estimated : Nat
  quoted : Option Nat
  prev : Option Toks
  nextRev : Nat
  nextRef : Nat
  responded : Bool

/-- `SemanticTokenCache` (semantic_tokens.rs:42-46) plus the slot heap and the live contexts. -/
structure State where
  nextId : Nat
  managers : Path → Option Manager
  heap : Nat → Option Slot
  nextRef : Nat
  ctxs : List (Nat × Ctx)
  nextCtx : Nat

def init : State :=
  { nextId := 0, managers := fun _ => none, heap := fun _ => none, nextRef := 0, ctxs := [], nextCtx := 0 }

/-- Functional map update. -/
def set {β : Type} (f : Path → Option β) (k : Path) (v : Option β) : Path → Option β :=
  fun x => if x = k then v else f x

/-- Heap update. -/
def setHeap (f : Nat → Option Slot) (k : Nat) (v : Slot) : Nat → Option Slot :=
  fun x => if x = k then some v else f x

/-- `RevisionManager::find_revision` with `|_| OnceLock::new()`, revision.rs:80-104.
Returns the manager, heap, next reference and the reference of the slot. -/
def findRevision (p : Path) (m : Manager) (heap : Nat → Option Slot) (nextRef : Nat) (rev : Nat) :
    Manager × (Nat → Option Slot) × Nat × Nat :=
  let fresh :=
    ({ m with slots := m.slots ++ [(rev, nextRef)], estimated := max rev m.estimated },
      setHeap heap nextRef { path := p, revision := rev, data := none }, nextRef + 1, nextRef)
  match slotBase m.slots rev with
  | some s => if s.1 = rev then (m, heap, nextRef, s.2) else fresh
  | none => fresh

/-- What the client receives. -/
inductive Body where
  | full (data : Toks)
  | delta (edits : List Edit)
deriving DecidableEq

structure Reply where
  path : Path
  quoted : Option Nat
  id : Nat
  body : Body
deriving DecidableEq

inductive Op where
  /-- `SemanticTokenCache::acquire`, semantic_tokens.rs:55-92, called in the main thread when a
  request arrives.  `prev` is the quoted id after `id.parse::<NonZeroUsize>().ok()` (so a
  malformed or zero id is `none`, see `acquire`). -/
  | acquire (path : Path) (prev : Option Nat)
  /-- The request is computed on a worker thread: `cached_tokens` (global.rs:438-450) stores the
  tokens and the answer is sent. -/
  | respond (ctx : Nat) (toks : Toks)
  /-- `SemanticTokenContext::drop`, semantic_tokens.rs:104-115. -/
  | release (ctx : Nat)
  /-- `SemanticTokenCache::clear`, semantic_tokens.rs:49-52. -/
  | clear

/-- `SemanticTokenCache::acquire`, semantic_tokens.rs:55-92. -/
def acquire (s : State) (path : Path) (prevStr : Option Nat) : State :=
  let nextId := s.nextId + 1
  let prev := prevStr.filter (· ≠ 0)
  let m0 := (s.managers path).getD Manager.empty
  -- `manager.lock(..)`, revision.rs:62-77
  let estimated := m0.estimated
  let m1 := { m0 with locked := incrLock m0.locked estimated }
  let withCtx := fun (m : Manager) (h : Nat → Option Slot) (r : Nat) (c : Ctx) =>
    ({ nextId := nextId, managers := set s.managers path (some m), heap := h, nextRef := r,
       ctxs := s.ctxs ++ [(s.nextCtx, c)], nextCtx := s.nextCtx + 1 } : State)
  match prev with
  | some p =>
    let (m2, h2, r2, pref) := findRevision path m1 s.heap s.nextRef p
    let prevData := (h2 pref).bind (·.data)
    let (m3, h3, r3, nref) := findRevision path m2 h2 r2 nextId
    withCtx m3 h3 r3 ⟨path, estimated, some p, prevData, nextId, nref, false⟩
  | none =>
    let (m3, h3, r3, nref) := findRevision path m1 s.heap s.nextRef nextId
    withCtx m3 h3 r3 ⟨path, estimated, none, none, nextId, nref, false⟩

/-- Remember that the request of context `h` has been answered. -/
def markResponded (ctxs : List (Nat × Ctx)) (h : Nat) : List (Nat × Ctx) :=
  ctxs.map fun p => if p.1 = h then (p.1, { p.2 with responded := true }) else p

/-- The `match` at semantic_tokens_delta.rs:34-50. -/
def replyBody (prev : Option Toks) (toks : Toks) : Body :=
  match prev with
  | some cached => Body.delta (tokenDelta cached toks)
  | none => Body.full toks

/-- `cached_tokens` (global.rs:438-450) followed by `SemanticTokensDeltaRequest::request`
(semantic_tokens_delta.rs:30-51) or `SemanticTokensFullRequest::request`
(semantic_tokens_full.rs:29-37; there `prev` is always `None`).  `none` is the panic
"unexpected slot overwrite".  The quoted id and the path are repeated in the reply so that the
client can be specified. -/
def respond (s : State) (h : Nat) (c : Ctx) (toks : Toks) : Option (State × Reply) :=
  match s.heap c.nextRef with
  | none => none
  | some slot =>
    match slot.data with
    | some _ => none
    | none =>
      let body := replyBody c.prev toks
      some ({ s with heap := setHeap s.heap c.nextRef { slot with data := some toks },
                     ctxs := markResponded s.ctxs h },
            { path := c.path, quoted := c.quoted, id := c.nextRev, body := body })

/-- `SemanticTokenContext::drop` → `RevisionManager::unlock` and `gc`,
semantic_tokens.rs:104-115, revision.rs:106-136.  `none` is the panic "revision is not locked". -/
def release (s : State) (h : Nat) (c : Ctx) : Option State :=
  let s' := { s with ctxs := s.ctxs.filter (fun p => p.1 ≠ h) }
  match s.managers c.path with
  | none => some s'
  | some m =>
    match decrLock m.locked c.estimated with
    | none => none
    | some (locked, false) => some { s' with managers := set s.managers c.path (some { m with locked := locked }) }
    | some (locked, true) =>
      -- `existing.or_else(|| max slot revision)`
      let minRev := match (locked.map (·.1)).min? with
        | some r => some r
        | none => (m.slots.map (·.1)).max?
      let slots := match minRev with
        | some r => m.slots.filter (fun sl => r ≤ sl.1)
        | none => m.slots
      some { s' with managers := set s.managers c.path (some { m with locked := locked, slots := slots }) }

/-- One event.  The result is `none` when the code panics; otherwise the new state and, for a
response, the reply sent together with the tokens the server computed. Events naming a context
that does not exist (or was already answered) are ignored: they cannot happen. -/
def step (s : State) : Op → Option (State × Option (Toks × Reply))
  | .acquire path prev => some (acquire s path prev, none)
  | .respond h toks =>
    match s.ctxs.lookup h with
    | none => some (s, none)
    | some c =>
      if c.responded then some (s, none)
      else match respond s h c toks with
        | none => none
        | some (s', r) => some (s', some (toks, r))
  | .release h =>
    match s.ctxs.lookup h with
    | none => some (s, none)
    | some c => match release s h c with
      | none => none
      | some s' => some (s', none)
  | .clear =>
    some ({ s with nextId := 0, managers := fun _ => none }, none)

/-- A history of events: the final state and the replies in order. -/
def run (s : State) : List Op → Option (State × List (Toks × Reply))
  | [] => some (s, [])
  | op :: ops =>
    match step s op with
    | none => none
    | some (s', out) =>
      match run s' ops with
      | none => none
      | some (s'', outs) => some (s'', out.toList ++ outs)

end Tinymist.TokenCache
