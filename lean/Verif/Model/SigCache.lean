/-!
# Signatures kept across questions

`compute_signature` and the caches it uses (crates/tinymist-query/src/analysis/global.rs). Each question has a number, its lifetime; signatures
are kept by a key that has the text of the file and the place, and are dropped by the age of their entry.

Simplifications: keys are the things themselves rather than hashes of them; one map stands for each of `def_signatures`, `static_signatures`
and `signatures`, which are used and collected alike; `compute` is a function `F` of the world and the key.
-/

namespace Tinymist.SigCache

variable {W K V : Type} [DecidableEq K]

/-- A question that is being answered: its lifetime (`SharedContext::lifetime`, global.rs 519-530), its world, and the key and cell of the
signature it is waiting for, if any. -/
structure Asker (W K : Type) where
  life : Nat
  world : W
  wait : Option (K × Nat)

/-- `CacheMap`'s entries (global.rs 1105-1108): the lifetime of the question that made it, and the address of the `DeferredCompute`. -/
structure Entry (K : Type) where
  key : K
  life : Nat
  cell : Nat

/-- `AnalysisGlobalCaches` (global.rs 1151-1158), with the cells the entries point to, which outlive them, and the questions going on. -/
structure St (W K V : Type) where
  lifetime : Nat
  clear : Nat
  map : List (Entry K)
  cells : List (Option V)
  askers : List (Asker W K)

/-- `AnalysisGlobalCaches::default`. -/
def init : St W K V := ⟨0, 0, [], [], []⟩

inductive Op (W K : Type) where
  /-- a question begins: `Analysis::enter_` (global.rs 95-116) -/
  | enter (w : W)
  /-- the question takes the cell of a key: `CacheMap::entry` (global.rs 1130-1134) -/
  | take (life : Nat) (k : K)
  /-- the question reads the cell, which is filled if it is not: `get_or_init` (global.rs 960) -/
  | read (life : Nat)
  /-- the question ends: `LocalContextGuard::drop` (global.rs 251-255) -/
  | drop (life : Nat)
  /-- `Analysis::clear_cache` (global.rs 156-163) -/
  | clear

/-- The question of this lifetime. -/
def find (life : Nat) (as : List (Asker W K)) : Option (Asker W K) := as.find? (·.life = life)

/-- The question now waits for this. -/
def setWait (life : Nat) (x : Option (K × Nat)) (as : List (Asker W K)) : List (Asker W K) :=
  as.map fun a => if a.life = life then { a with wait := x } else a

/-- `CacheMap::entry` (global.rs 1130-1134): the cell of the key, an empty one if there is none. -/
def entry (k : K) (life : Nat) (st : St W K V) : Nat × St W K V :=
  match st.map.find? (·.key = k) with
  | some e => (e.cell, st)
  | none => (st.cells.length, { st with map := ⟨k, life, st.cells.length⟩ :: st.map, cells := st.cells ++ [none] })

/-- `retainer` (global.rs 278). -/
def retained (life l : Nat) : Bool := decide (life - l < 60)

/-- `LocalContextGuard::gc` (global.rs 257-284), where the exchange succeeds at once (`settle` below is the loop). -/
def gc (life : Nat) (st : St W K V) : St W K V :=
  if st.clear ≥ life then st
  else { st with clear := life, map := st.map.filter fun e => retained life e.life }

/-- One step, and the signature if one is read: with the key. -/
def step (F : W → K → V) (st : St W K V) : Op W K → St W K V × Option (K × V)
  | .enter w => ({ st with lifetime := st.lifetime + 1, askers := st.askers ++ [⟨st.lifetime, w, none⟩] }, none)
  | .take life k =>
    match find life st.askers with
    | none => (st, none)
    | some _ => let (c, st) := entry k life st; ({ st with askers := setWait life (some (k, c)) st.askers }, none)
  | .read life =>
    match find life st.askers with
    | some ⟨_, w, some (k, c)⟩ =>
      match st.cells[c]? with
      | some (some v) => ({ st with askers := setWait life none st.askers }, some (k, v))
      | some none => ({ st with askers := setWait life none st.askers, cells := st.cells.set c (some (F w k)) }, some (k, F w k))
      | none => (st, none)
    | _ => (st, none)
  | .drop life =>
    match find life st.askers with
    | none => (st, none)
    | some _ => ({ gc life st with askers := st.askers.filter (·.life ≠ life) }, none)
  | .clear => ({ st with map := [] }, none)

def run (F : W → K → V) (st : St W K V) (ops : List (Op W K)) : St W K V := ops.foldl (fun st o => (step F st o).1) st

/-! ## The loop -/

/-- The loop that enters the lifetime as that of the last collection (global.rs 259-276). `other n` is what other threads make of the value
between the load and the exchange of round `n`. The value then, and whether this thread collects; `none` if it takes more rounds. -/
def settle (life : Nat) (other : Nat → Nat → Nat) : Nat → Nat → Nat → Option (Nat × Bool)
  | 0, _, _ => none
  | fuel + 1, n, v =>
    if v ≥ life then some (v, false)
    else
      let v' := other n v
      if v' = v then some (life, true) else settle life other fuel (n + 1) v'

end Tinymist.SigCache
