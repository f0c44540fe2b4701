import Verif.Model.Stats

/-!
# What statistics have to say
-/

namespace Tinymist.Stats

/-- Whom an event is about. -/
def Event.who : Event → Nat
  | .start g _ _ => g
  | .miss g => g
  | .snap g _ => g
  | .finish g _ => g

/-- When an event is. -/
def Event.time : Event → Nat
  | .start _ _ t => t
  | .miss _ => 0
  | .snap _ t => t
  | .finish _ t => t

/-- Each query starts once, before all else of it, and does nothing when it is finished. -/
def Proper (h : List Event) : Prop :=
  ∀ before e after, h = before ++ e :: after →
    match e with
    | .start g _ _ => ∀ e' ∈ before, e'.who ≠ g
    | e => (∃ k t, Event.start e.who k t ∈ before) ∧ ∀ t, Event.finish e.who t ∉ before

/-- Query `g` was of `k`, and took `d`; it is finished. -/
def Took (h : List Event) (g : Nat) (k : Key) (d : Nat) : Prop :=
  ∃ t t', Event.start g k t ∈ h ∧ Event.finish g t' ∈ h ∧ d = t' - t

/-- The file, the query and the time that `g` started with. -/
def startOf (h : List Event) (g : Nat) : Option (Key × Nat) :=
  h.findSome? fun | .start g' k t => if g' = g then some (k, t) else none | _ => none

/-- When `g` had what it needs to begin, first. -/
def snapOf (h : List Event) (g : Nat) : Option Nat :=
  h.findSome? fun | .snap g' t => if g' = g then some t else none | _ => none

/-- What the finished queries of `k` took. -/
def durations (h : List Event) (k : Key) : List Nat :=
  h.filterMap fun
    | .finish g t => (startOf h g).bind fun s => if s.1 = k then some (t - s.2) else none
    | _ => none

/-- What they took up to where they had what they need; nothing if they never had. -/
def waits (h : List Event) (k : Key) : List Nat :=
  h.filterMap fun
    | .finish g _ => (startOf h g).bind fun s => if s.1 = k then some (((snapOf h g).map (· - s.2)).getD 0) else none
    | _ => none

/-- The queries of `k` that missed what was kept. -/
def misses (h : List Event) (k : Key) : List Nat :=
  h.filterMap fun
    | .miss g => (startOf h g).bind fun s => if s.1 = k then some g else none
    | _ => none

/-- What the row of `k` has to say. -/
structure RowOf (h : List Event) (k : Key) (b : Bucket) : Prop where
  count : b.query = (durations h k).length
  total : b.total = (durations h k).sum
  snap : b.snap = (waits h k).sum
  missing : b.missing = (misses h k).length
  least : ∀ d ∈ durations h k, b.min ≤ d
  least_taken : durations h k ≠ [] → b.min ∈ durations h k
  most : ∀ d ∈ durations h k, d ≤ b.max
  most_taken : durations h k ≠ [] → b.max ∈ durations h k

/-- Values that are alive. -/
def alive (h : List AllocEvent) : Nat := h.count .increment - h.count .decrement

end Tinymist.Stats
