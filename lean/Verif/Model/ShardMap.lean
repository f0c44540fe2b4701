import Verif.Model.Fingerprint

/-!
# The map sharded by fingerprint

Models `FingerprintMap` (`crates/tinymist-std/src/adt/fmap.rs`). Locks are left out: every operation holds the lock of its
shard throughout. A hash map is a list of pairs with different keys.
-/

namespace Tinymist.ShardMap

open Fingerprint (Fp lower32)

/-- `MAX_SHARD_SIZE` (`fmap.rs` 9). -/
def maxShards : Nat := 512

/-- `FingerprintMap` (`fmap.rs` 46-49). -/
structure Map (V : Type) where
  mask : Nat
  shards : List (List (Fp × V))

/-- `u32::next_power_of_two` (std); `none`: overflow, which panics, or gives zero and fails the assertions. -/
def nextPower (n : Nat) : Option Nat :=
  ((List.range 32).find? (fun k => n ≤ 2 ^ k)).map (2 ^ ·)

/-- `new` (`fmap.rs` 59-74); the argument is not zero. -/
def new (V : Type) (size : Nat) : Option (Map V) :=
  match nextPower size with
  | none => none
  | some s => some ⟨min s maxShards - 1, List.replicate (min s maxShards) []⟩

variable {V : Type}

/-- `route_idx` (`fmap.rs` 86). -/
def route (m : Map V) (f : Fp) : Nat := lower32 f &&& m.mask

/-- `shard` (`fmap.rs` 84-93); `none`: an access out of bounds, which is not checked. -/
def shard (m : Map V) (f : Fp) : Option (List (Fp × V)) := m.shards[route m f]?

/-- What callers do with the shard of a fingerprint. -/
inductive Op (V : Type) where
  | insert (f : Fp) (v : V)
  | remove (f : Fp)

def Op.key : Op V → Fp
  | .insert f _ => f
  | .remove f => f

/-- `HashMap::insert` and `HashMap::remove` (std). -/
def change (l : List (Fp × V)) : Op V → List (Fp × V)
  | .insert f v => (f, v) :: l.filter (fun p => p.1 ≠ f)
  | .remove f => l.filter (fun p => p.1 ≠ f)

/-- `map.shard(f).write()` and a change to it; `none` as in `shard`. -/
def step (m : Map V) (o : Op V) : Option (Map V) :=
  match shard m o.key with
  | none => none
  | some l => some { m with shards := m.shards.set (route m o.key) (change l o) }

def run (m : Map V) : List (Op V) → Option (Map V)
  | [] => some m
  | o :: ops => match step m o with
    | none => none
    | some m => run m ops

/-- `map.shard(f).read().get(f)`. -/
def get (m : Map V) (f : Fp) : Option (Option V) :=
  match shard m f with
  | none => none
  | some l => some ((l.find? (fun p => p.1 = f)).map (·.2))

/-- `contains_key` (`fmap.rs` 101-103). -/
def containsKey (m : Map V) (f : Fp) : Option Bool :=
  match shard m f with
  | none => none
  | some l => some (l.any (fun p => p.1 = f))

/-- `into_items` (`fmap.rs` 77-81). -/
def intoItems (m : Map V) : List (Fp × V) := m.shards.flatten

end Tinymist.ShardMap
