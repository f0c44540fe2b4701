import Verif.Model.RustNum
/-!
# Preview span interner

Models `crates/typst-preview/src/debug_loc.rs`.  Machine integers are natural numbers with explicit
truncation; `usize` is taken as unbounded (64 bits in practice).
-/
namespace Tinymist.Interner
open Tinymist.RustNum

/-- `InternId`, debug_loc.rs:13-16: two `u32` fields. -/
structure InternId where
  lifetime : Nat
  id : Nat
  deriving DecidableEq, Repr

/-- `InternId::new`, debug_loc.rs:19-24: `as u32` truncates. -/
def InternId.new (lifetime id : Nat) : InternId := ⟨lifetime % 2 ^ 32, id % 2 ^ 32⟩

/-- `to_u64`, debug_loc.rs:26-28: shift and bitwise or. -/
def InternId.toU64 (i : InternId) : Nat := (i.lifetime <<< 32) ||| i.id

/-- `from_u64`, debug_loc.rs:30-35. -/
def InternId.fromU64 (n : Nat) : InternId := ⟨(n >>> 32) % 2 ^ 32, (n &&& 0xffffffff) % 2 ^ 32⟩

/-- `to_hex`, debug_loc.rs:37-39. -/
def InternId.toHex (i : InternId) : List Char := print 16 i.toU64

/-- `from_hex`, debug_loc.rs:41-43; `none` models the panic of `unwrap`. -/
def InternId.fromHex (s : List Char) : Option InternId := (parse 16 (2 ^ 64 - 1) s).map fromU64

/-- `GARAGE_COLLECT_THRESHOLD`, debug_loc.rs:99. -/
def threshold : Nat := 30

/-- `SpanInternerImpl`, debug_loc.rs:88-91.  The `IndexSet` is the list of its items in index order. -/
structure State (S : Type) where
  lifetime : Nat
  items : List (Nat × S)
  deriving Repr

/-- `InternQuery`, debug_loc.rs:8-11. -/
inductive Query (S : Type) where
  | ok : Option S → Query S
  | useAfterFree : Query S
  deriving DecidableEq, Repr

variable {S : Type}

/-- `SpanInternerImpl::new`, debug_loc.rs:102-107. -/
def init (S : Type) : State S := ⟨1, []⟩

/-- `reset`, debug_loc.rs:109-113.  `IndexSet::retain` keeps the order of the remaining items and
renumbers them. -/
def reset (s : State S) : State S :=
  { lifetime := s.lifetime + 1
    items := s.items.filter fun it => decide (s.lifetime + 1 - it.1 < threshold) }

/-- `span`, debug_loc.rs:119-130. -/
def span (s : State S) (id : InternId) : Query S :=
  if id.lifetime + threshold ≤ s.lifetime then .useAfterFree
  else .ok ((s.items[id.id]?).map (·.2))

/-- `span_by_str`, debug_loc.rs:115-117. -/
def spanByStr (s : State S) (str : List Char) : Option (Query S) := (InternId.fromHex str).map (span s)

variable [DecidableEq S]

/-- `intern`, debug_loc.rs:132-138.  `insert_full` returns the index of the existing equal item or
appends. -/
def intern (s : State S) (x : S) : State S × InternId :=
  match s.items.findIdx? (fun it => it = (s.lifetime, x)) with
  | some i => (s, InternId.new s.lifetime i)
  | none => ({ s with items := s.items ++ [(s.lifetime, x)] }, InternId.new s.lifetime s.items.length)

/-- What the preview does with the interner: `reset` before each outline (render.rs:365-372),
`intern` for each outline item (outline.rs:170). -/
inductive Op (S : Type) where
  | reset : Op S
  | intern : S → Op S
  deriving DecidableEq, Repr

def step (s : State S) : Op S → State S
  | .reset => reset s
  | .intern x => (intern s x).1

def run (s : State S) (ops : List (Op S)) : State S := ops.foldl step s

end Tinymist.Interner
