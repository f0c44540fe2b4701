/-!
# Interned objects

Models crates/tinymist-analysis/src/adt/interner.rs. Threads interleave at the accesses to the shared memory: what is done
under the lock of a shard is one step, and so is every access to a reference count. All shards are one map here: an object
only ever meets the lock of its own shard. Memory is sequentially consistent.
-/

namespace Tinymist.Interned

/-- Where an `Interned` is: in use, in `drop_slow` before the lock is taken, or about to give its reference back, which happens
when `drop` has returned, and gone. -/
inductive Phase where
  | live
  | slow
  | releasing
  | gone
  deriving DecidableEq, Repr

/-- An `Interned` (interner.rs:41-43): a pointer. The value it was made from is kept beside it for the statements. -/
structure Handle (V : Type) where
  phase : Phase
  addr : Nat
  value : V

/-- The storage of a type (interner.rs:346-349) with the objects it points to, and the handles of all threads. `mem` gives the
value and the reference count of an allocated object. `inserted` and `removed` are the statistics. `panicked` is set by
`unreachable!()`, and `underflow` when a reference is given back to an object that is not allocated. -/
structure State (V : Type) where
  mem : Nat → Option (V × Nat)
  map : List (V × Nat)
  handles : List (Handle V)
  inserted : Nat
  removed : Nat
  panicked : Bool
  underflow : Bool

/-- Nothing interned. -/
def State.empty {V : Type} : State V := ⟨fun _ => none, [], [], 0, 0, false, false⟩

/-- One step of one thread. -/
inductive Op (V : Type) where
  /-- `Interned::new` and `new_str`; a new object is allocated at `a`, if one is. -/
  | intern (v : V) (a : Nat)
  /-- `Clone` of a handle. -/
  | clone (i : Nat)
  /-- The beginning of `drop`, with its first look at the count. -/
  | drop (i : Nat)
  /-- `drop_slow` under the lock. -/
  | dropSlow (i : Nat)
  /-- The end of `drop`: the field is dropped. -/
  | release (i : Nat)

variable {V : Type} [DecidableEq V]

/-- A place of the memory is written. -/
def write (mem : Nat → Option (V × Nat)) (a : Nat) (x : Option (V × Nat)) : Nat → Option (V × Nat) :=
  fun b => if b = a then x else mem b

/-- `Arc::clone`: one reference more. -/
def incr (mem : Nat → Option (V × Nat)) (a : Nat) : Nat → Option (V × Nat) :=
  write mem a ((mem a).map fun x => (x.1, x.2 + 1))

/-- The drop of an `Arc`: one reference less, and the object is freed with the last one. -/
def decr (mem : Nat → Option (V × Nat)) (a : Nat) : Nat → Option (V × Nat) :=
  write mem a ((mem a).bind fun x => if x.2 ≤ 1 then none else some (x.1, x.2 - 1))

/-- `Arc::count`. -/
def countOf (mem : Nat → Option (V × Nat)) (a : Nat) : Nat := ((mem a).map Prod.snd).getD 0

/-- The handle goes on to a phase. -/
def moveTo (s : State V) (i : Nat) (h : Handle V) (p : Phase) : State V :=
  { s with handles := s.handles.set i { h with phase := p } }

/-- One step. A step that is not possible does nothing. -/
def step (s : State V) : Op V → State V
  | .intern v a =>
    match s.map.lookup v with
    -- interner.rs:56-58, 89-91
    | some b => { s with mem := incr s.mem b, handles := s.handles ++ [⟨.live, b, v⟩] }
    -- interner.rs:59-67, 92-101: the map has one reference, the handle the other
    | none =>
      if (s.mem a).isSome then s
      else { s with
        mem := write s.mem a (some (v, 2))
        map := (v, a) :: s.map
        handles := s.handles ++ [⟨.live, a, v⟩]
        inserted := s.inserted + 1 }
  | .clone i =>
    match s.handles[i]? with
    | some h =>
      -- interner.rs:324-330
      if h.phase = .live then { s with mem := incr s.mem h.addr, handles := s.handles ++ [⟨.live, h.addr, h.value⟩] } else s
    | none => s
  | .drop i =>
    match s.handles[i]? with
    | some h =>
      -- interner.rs:182-192
      if h.phase = .live then
        if countOf s.mem h.addr = 2 then moveTo s i h .slow else moveTo s i h .releasing
      else s
    | none => s
  | .dropSlow i =>
    match s.handles[i]? with
    | some h =>
      -- interner.rs:194-219
      if h.phase = .slow then
        if countOf s.mem h.addr ≠ 2 then moveTo s i h .releasing
        else
          match s.mem h.addr with
          | none => { s with underflow := true }
          | some (w, _) =>
            match s.map.lookup w with
            | some b =>
              moveTo { s with
                mem := decr s.mem b
                map := s.map.filter fun e => e.1 ≠ w
                removed := s.removed + 1 } i h .releasing
            | none => { s with panicked := true }
      else s
    | none => s
  | .release i =>
    match s.handles[i]? with
    | some h =>
      if h.phase = .releasing then
        moveTo { s with mem := decr s.mem h.addr, underflow := s.underflow || (s.mem h.addr).isNone } i h .gone
      else s
    | none => s

/-- A schedule. -/
def run (ops : List (Op V)) (s : State V) : State V := ops.foldl step s

/-- `drop` without another thread in between. -/
def dropWhole (i : Nat) : List (Op V) := [.drop i, .dropSlow i, .release i]

end Tinymist.Interned
