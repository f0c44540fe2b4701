import Verif.Spec.ShardMap
import Verif.Lemmas.Util

/-! # C65: the sharded map never leaves its shards, and is one map -/

namespace Tinymist.ShardMap

open Fingerprint (Fp)

variable {V : Type}

/-- What every map has: shards for all indices, and every key in its shard, once. -/
structure Ok (m : Map V) : Prop where
  size : m.mask < m.shards.length
  keys : ∀ i l, m.shards[i]? = some l → (l.map (·.1)).Nodup ∧ ∀ p ∈ l, route m p.1 = i

theorem route_lt {m : Map V} (h : Ok m) (f : Fp) : route m f < m.shards.length :=
  Nat.lt_of_le_of_lt Nat.and_le_right h.size

theorem shard_some {m : Map V} (h : Ok m) (f : Fp) : ∃ l, shard m f = some l :=
  ⟨_, List.getElem?_eq_getElem (route_lt h f)⟩

theorem new_ok {size : Nat} {m : Map V} (h : new V size = some m) : Ok m ∧ ∀ f, get m f = some none := by
  rw [new] at h
  split at h
  · cases h
  · rename_i s hs
    cases h
    have hpos : 0 < min s maxShards := by
      rw [nextPower, Option.map_eq_some_iff] at hs
      obtain ⟨k, _, rfl⟩ := hs
      have := Nat.two_pow_pos k
      simp only [maxShards]; omega
    have hok : Ok (⟨min s maxShards - 1, List.replicate (min s maxShards) []⟩ : Map V) := by
      refine ⟨by simp; omega, ?_⟩
      intro i l hl
      have := List.mem_of_getElem? hl
      rw [(List.mem_replicate.mp this).2]
      simp
    refine ⟨hok, fun f => ?_⟩
    obtain ⟨l, hl⟩ := shard_some hok f
    rw [get, hl]
    have := List.mem_of_getElem? hl
    rw [(List.mem_replicate.mp this).2]
    rfl

theorem change_ok {l : List (Fp × V)} (o : Op V) (h : (l.map (·.1)).Nodup) :
    ((change l o).map (·.1)).Nodup ∧ ∀ p ∈ change l o, p.1 = o.key ∨ p ∈ l := by
  have hf : ∀ f, ((l.filter (fun p => p.1 ≠ f)).map (·.1)).Nodup := fun f =>
    h.sublist (List.filter_sublist.map _)
  cases o with
  | insert f v =>
    refine ⟨?_, ?_⟩
    · rw [change, List.map_cons, List.nodup_cons]
      refine ⟨?_, hf f⟩
      rw [List.mem_map]
      rintro ⟨p, hp, e⟩
      have := (List.mem_filter.mp hp).2
      simp [e] at this
    · intro p hp
      rcases List.mem_cons.mp hp with rfl | hp
      · exact Or.inl rfl
      · exact Or.inr (List.mem_filter.mp hp).1
  | remove f => exact ⟨hf f, fun p hp => Or.inr (List.mem_filter.mp hp).1⟩

theorem find_change (l : List (Fp × V)) (o : Op V) (f : Fp) :
    ((change l o).find? (fun p => p.1 = f)).map (·.2) =
      if o.key = f then (match o with | .insert _ v => some v | .remove _ => none)
      else (l.find? (fun p => p.1 = f)).map (·.2) := by
  have drop : ∀ g, (l.filter (fun p => decide (p.1 ≠ g))).find? (fun p => decide (p.1 = f)) =
      if g = f then none else l.find? (fun p => decide (p.1 = f)) := by
    intro g
    rw [List.find?_filter]
    split
    · rename_i e
      subst e
      apply List.find?_eq_none.mpr
      intro p _
      simp
    · rename_i hne
      congr
      funext p
      by_cases e : p.1 = f
      · simp [e, Ne.symm hne]
      · simp [e]
  cases o with
  | insert g v =>
    simp only [change, Op.key]
    by_cases e : g = f
    · simp [e]
    · rw [List.find?_cons_of_neg (by simpa using e), drop]
      simp [e]
  | remove g =>
    simp only [change, Op.key]
    rw [drop]
    split <;> simp_all

theorem step_ok {m : Map V} (h : Ok m) (o : Op V) :
    ∃ m', step m o = some m' ∧ Ok m' ∧
      ∀ f, get m' f = if o.key = f then some (match o with | .insert _ v => some v | .remove _ => none) else get m f := by
  obtain ⟨l, hl⟩ := shard_some h o.key
  have hlt := route_lt h o.key
  refine ⟨_, by rw [step, hl], ?_, ?_⟩
  · refine ⟨by simpa using h.size, ?_⟩
    intro i l' hi
    rw [List.getElem?_set, if_pos hlt] at hi
    split at hi
    · rename_i e
      subst e
      cases hi
      obtain ⟨c1, c2⟩ := change_ok o (h.keys _ l hl).1
      refine ⟨c1, fun p hp => ?_⟩
      rcases c2 p hp with e | hp
      · rw [e]; rfl
      · exact (h.keys _ l hl).2 p hp
    · exact h.keys i l' hi
  · intro f
    have hr : route { m with shards := m.shards.set (route m o.key) (change l o) } f = route m f := rfl
    rw [get, get, shard, shard, hr]
    by_cases e : o.key = f
    · subst e
      rw [List.getElem?_set_self hlt, if_pos rfl]
      simp only
      rw [find_change, if_pos rfl]
    · rw [if_neg e, List.getElem?_set]
      by_cases hroute : route m o.key = route m f
      · rw [if_pos hroute, if_pos hlt, ← hroute]
        have : m.shards[route m o.key]? = some l := hl
        rw [this]
        simp only
        rw [find_change, if_neg e]
      · rw [if_neg hroute]

theorem value_snoc (f : Fp) (ops : List (Op V)) (o : Op V) :
    value f (ops ++ [o]) =
      if o.key = f then (match o with | .insert _ v => some v | .remove _ => none) else value f ops := by
  rw [value, value, List.filter_append]
  by_cases e : o.key = f
  · rw [if_pos e, List.filter_cons_of_pos (by simpa using e), List.filter_nil, List.getLast?_concat]
    cases o <;> rfl
  · rw [if_neg e, List.filter_cons_of_neg (by simpa using e), List.filter_nil, List.append_nil]

theorem run_append (m : Map V) (a b : List (Op V)) : run m (a ++ b) = (run m a).bind (run · b) := by
  induction a generalizing m with
  | nil => rfl
  | cons o a ih =>
    rw [List.cons_append, run, run]
    split
    · rfl
    · exact ih _

theorem run_ok {size : Nat} {m : Map V} (h : new V size = some m) (ops : List (Op V)) :
    ∃ m', run m ops = some m' ∧ Ok m' ∧ ∀ f, get m' f = some (value f ops) := by
  rw [← List.reverse_reverse ops]
  generalize ops.reverse = l
  induction l with
  | nil => exact ⟨m, rfl, new_ok h⟩
  | cons o l ih =>
    obtain ⟨m1, r1, o1, g1⟩ := ih
    obtain ⟨m2, r2, o2, g2⟩ := step_ok o1 o
    refine ⟨m2, ?_, o2, fun f => ?_⟩
    · rw [List.reverse_cons, run_append, r1]
      simp [run, r2]
    · rw [g2, g1, List.reverse_cons, value_snoc]
      split <;> rfl

/-- **C65, in bounds.** Whatever was done to a map of any size, the unchecked access for any fingerprint is to one of its
shards. -/
theorem access_in_bounds {size : Nat} {m : Map V} (h : new V size = some m) (ops : List (Op V)) :
    ∃ m', run m ops = some m' ∧ ∀ f, route m' f < m'.shards.length ∧ shard m' f ≠ none := by
  obtain ⟨m', r, ok, _⟩ := run_ok h ops
  refine ⟨m', r, fun f => ⟨route_lt ok f, ?_⟩⟩
  obtain ⟨l, hl⟩ := shard_some ok f
  rw [hl]; simp

/-- **C65, one map.** A fingerprint has the value last inserted for it, unless it was removed since. -/
theorem get_last {size : Nat} {m : Map V} (h : new V size = some m) (ops : List (Op V)) :
    ∃ m', run m ops = some m' ∧
      ∀ f, get m' f = some (value f ops) ∧ containsKey m' f = some (value f ops).isSome := by
  obtain ⟨m', r, ok, g⟩ := run_ok h ops
  refine ⟨m', r, fun f => ⟨g f, ?_⟩⟩
  have hg := g f
  obtain ⟨l, hl⟩ := shard_some ok f
  rw [get, hl] at hg
  simp only [Option.some.injEq] at hg
  rw [containsKey, hl, ← hg]
  simp only [Option.isSome_map, Option.some.injEq]
  rw [Bool.eq_iff_iff]
  simp

/-- **C65, all items.** Taking the map apart gives every fingerprint that has a value once, with its value, and nothing
else. -/
theorem items_exact {size : Nat} {m : Map V} (h : new V size = some m) (ops : List (Op V)) :
    ∃ m', run m ops = some m' ∧ ((intoItems m').map (·.1)).Nodup ∧
      ∀ f v, (f, v) ∈ intoItems m' ↔ value f ops = some v := by
  obtain ⟨m', r, ok, g⟩ := run_ok h ops
  refine ⟨m', r, ?_, ?_⟩
  · rw [intoItems, List.map_flatten]
    rw [List.Nodup, List.pairwise_flatten]
    refine ⟨?_, ?_⟩
    · intro x hx
      obtain ⟨l, hl, rfl⟩ := List.mem_map.mp hx
      obtain ⟨i, hi⟩ := List.mem_iff_getElem?.mp hl
      exact (ok.keys i l hi).1
    · rw [List.pairwise_map]
      rw [List.pairwise_iff_getElem]
      intro i j hi hj hij a ha b hb e
      obtain ⟨p, hp, rfl⟩ := List.mem_map.mp ha
      obtain ⟨q, hq, rfl⟩ := List.mem_map.mp hb
      have h1 := (ok.keys i _ (List.getElem?_eq_getElem hi)).2 p hp
      have h2 := (ok.keys j _ (List.getElem?_eq_getElem hj)).2 q hq
      rw [e] at h1
      omega
  · intro f v
    have hg := g f
    obtain ⟨l, hl⟩ := shard_some ok f
    rw [get, hl] at hg
    simp only [Option.some.injEq] at hg
    rw [← hg]
    have hl' : m'.shards[route m' f]? = some l := hl
    have nd := (ok.keys _ l hl').1
    constructor
    · intro hm
      obtain ⟨l', hl1, hm'⟩ := List.mem_flatten.mp hm
      obtain ⟨i, hi⟩ := List.mem_iff_getElem?.mp hl1
      have := (ok.keys i l' hi).2 _ hm'
      simp only at this
      subst this
      rw [hl'] at hi
      cases hi
      cases hf : l.find? (fun p => p.1 = f) with
      | none => have := List.find?_eq_none.mp hf _ hm'; simp at this
      | some p =>
        have h1 := List.mem_of_find?_eq_some hf
        have h2 : p.1 = f := by simpa using List.find?_some hf
        have := Util.eq_of_nodup_map nd h1 hm' h2
        rw [this]; rfl
    · intro hv
      cases hf : l.find? (fun p => p.1 = f) with
      | none => rw [hf] at hv; cases hv
      | some p =>
        rw [hf] at hv
        have h1 := List.mem_of_find?_eq_some hf
        have h2 : p.1 = f := by simpa using List.find?_some hf
        have : p = (f, v) := by
          cases hv
          rw [← h2]
        rw [this] at h1
        exact List.mem_flatten.mpr ⟨l, List.mem_of_getElem? hl', h1⟩

/-- **C65, exactly which sizes.** A map can be made for every size up to 2 ^ 31; the program ends for greater ones. -/
theorem new_iff (size : Nat) : (∃ m, new V size = some m) ↔ size ≤ 2 ^ 31 := by
  rw [new, nextPower]
  cases h : (List.range 32).find? (fun k => decide (size ≤ 2 ^ k)) with
  | none =>
    refine ⟨fun ⟨_, h⟩ => (nomatch h), fun h' => ?_⟩
    have := List.find?_eq_none.mp h 31 (by simp)
    simp at this
    omega
  | some k =>
    refine ⟨fun _ => ?_, fun _ => ⟨_, rfl⟩⟩
    have h1 : size ≤ 2 ^ k := by simpa using List.find?_some h
    have h2 : k < 32 := List.mem_range.mp (List.mem_of_find?_eq_some h)
    exact Nat.le_trans h1 (Nat.pow_le_pow_right (by omega) (by omega))

/-- Witness: two fingerprints in the same shard of a map for 3 shards, which has 4. -/
example : (new Nat 3).map (fun m => (m.mask, m.shards.length)) = some (3, 4) ∧
    ((new Nat 3).bind fun m => (run m [.insert ⟨1, 0⟩ 7, .insert ⟨5, 0⟩ 8, .remove ⟨1, 0⟩]).map intoItems) =
      some [(⟨5, 0⟩, 8)] := by decide

end Tinymist.ShardMap
