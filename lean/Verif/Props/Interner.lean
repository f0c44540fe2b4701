import Verif.Lemmas.Interner
/-!
# C38, C39: preview source ids
-/
namespace Tinymist.Interner
open Spec RustNum

/-- **C39.** Printing any id (two 32-bit numbers) and parsing it yields the same id, without panic. -/
theorem hex_roundtrip (l i : Nat) (hl : l < 2 ^ 32) (hi : i < 2 ^ 32) :
    InternId.fromHex (InternId.toHex ⟨l, i⟩) = some ⟨l, i⟩ := by
  unfold InternId.fromHex InternId.toHex
  rw [parse_print (by omega) (by omega) _ _ (toU64_lt hl hi)]
  simp [fromU64_toU64 (i := ⟨l, i⟩) hl hi]

/-- Non-vacuity: an id whose both halves are non-trivial; the low half keeps its leading zeros. -/
example : InternId.toHex ⟨31, 0x0a0⟩ = "1f000000a0".toList ∧
    InternId.fromHex "1f000000a0".toList = some ⟨31, 0x0a0⟩ ∧
    InternId.fromHex "1G".toList = none := by decide +kernel

variable {S : Type} [DecidableEq S]

/-- **C38 (partial: as long as no other id that was alive at issue time has expired since).**
For every history `pre`, the id issued next for `x` resolves after any further history `post` to
exactly `x` until 30 refreshes have happened.  Missing: later, when older ids
have expired, for which the statement is false (`collected_ids_resolve_wrongly`). -/
theorem issued_id_resolves_partial (pre post : List (Op S)) (x : S)
    (ht : time (pre ++ post) < 2 ^ 32 - 1) (hn : requests pre < 2 ^ 32)
    (hlive : NoneExpiredBetween pre post) (halive : time (pre ++ post) < time pre + 30) :
    let issued := intern (run (init S) pre) x
    spanByStr (run issued.1 post) issued.2.toHex = some (.ok (some x)) := by
  intro issued
  have hlt : (run (init S) pre).lifetime = 1 + time pre := run_lifetime pre (init S)
  have hlen : (run (init S) pre).items.length ≤ requests pre := by
    have := run_length pre (init S)
    simpa [init] using this
  rw [time_append] at ht halive
  -- facts about the issued id
  have hid : ∃ k, k < 2 ^ 32 ∧ issued.2 = ⟨1 + time pre, k⟩ ∧ issued.1.items[k]? = some (1 + time pre, x)
      ∧ issued.1.lifetime = 1 + time pre
      ∧ (∀ it ∈ issued.1.items, it ∈ (run (init S) pre).items ∨ it = (1 + time pre, x)) := by
    simp only [issued, intern]
    split
    · rename_i k hk
      rw [List.findIdx?_eq_some_iff_getElem] at hk
      obtain ⟨hk1, hk2, -⟩ := hk
      simp only [decide_eq_true_eq] at hk2
      refine ⟨k, by omega, ?_, ?_, hlt, ?_⟩
      · simp only [InternId.new, InternId.mk.injEq]
        rw [hlt]
        refine ⟨Nat.mod_eq_of_lt (by omega), Nat.mod_eq_of_lt ?_⟩
        omega
      · rw [List.getElem?_eq_getElem hk1, hk2, hlt]
      · intro it hit; exact .inl hit
    · refine ⟨(run (init S) pre).items.length, by omega, ?_, ?_, hlt, ?_⟩
      · simp only [InternId.new, InternId.mk.injEq]
        rw [hlt]
        refine ⟨Nat.mod_eq_of_lt (by omega), Nat.mod_eq_of_lt ?_⟩
        omega
      · simp [hlt]
      · intro it hit
        simp only [List.mem_append, List.mem_singleton, hlt] at hit
        exact hit
  obtain ⟨k, hk, h1, h2, h3, h4⟩ := hid
  have hpre : issued.1.items <+: (run issued.1 post).items := by
    apply run_prefix
    intro it hit
    rw [h3]
    rcases h4 it hit with hit | rfl
    · obtain ⟨⟨p, y, q, hp, rfl⟩, hexp⟩ := items_from_history pre it hit
      have := hlive p y q hp
      rw [time_append] at this
      simp only at hexp ⊢
      omega
    · simp only; omega
  have hget : (run issued.1 post).items[k]? = some (1 + time pre, x) := by
    obtain ⟨suf, hs⟩ := hpre
    rw [← hs, List.getElem?_append_left]
    · exact h2
    · rw [List.getElem?_eq_some_iff] at h2; exact h2.1
  unfold spanByStr
  rw [h1, hex_roundtrip _ _ (by omega) hk]
  simp only [Option.map_some, span, threshold, run_lifetime, h3]
  rw [if_neg (by omega), hget]
  rfl

/-- **C38 (expiry, all histories).** After 30 refreshes the id is reported as expired. -/
theorem issued_id_expires (pre post : List (Op S)) (x : S)
    (ht : time pre < 2 ^ 32 - 1) (hexp : time pre + 30 ≤ time (pre ++ post)) :
    let issued := intern (run (init S) pre) x
    spanByStr (run issued.1 post) issued.2.toHex = some .useAfterFree := by
  intro issued
  have hlt : (run (init S) pre).lifetime = 1 + time pre := run_lifetime pre (init S)
  have hid : ∃ k, k < 2 ^ 32 ∧ issued.2 = ⟨1 + time pre, k⟩ ∧ issued.1.lifetime = 1 + time pre := by
    simp only [issued, intern]
    split
    · rename_i k _
      refine ⟨k % 2 ^ 32, Nat.mod_lt _ (by decide), ?_, hlt⟩
      simp only [InternId.new, InternId.mk.injEq, hlt, and_true]
      exact Nat.mod_eq_of_lt (by omega)
    · refine ⟨(run (init S) pre).items.length % 2 ^ 32, Nat.mod_lt _ (by decide), ?_, hlt⟩
      simp only [InternId.new, InternId.mk.injEq, hlt, and_true]
      exact Nat.mod_eq_of_lt (by omega)
  obtain ⟨k, hk, h1, h3⟩ := hid
  unfold spanByStr
  rw [h1, hex_roundtrip _ _ (by omega) hk]
  rw [time_append] at hexp
  simp only [Option.map_some, span, threshold, run_lifetime, h3]
  rw [if_pos (by omega)]

/-- **C38 is false of the code.** `IndexSet::retain` renumbers the remaining items, so once an
older id has expired a still valid id resolves to another location. -/
theorem collected_ids_resolve_wrongly :
    ∃ (pre post : List (Op String)) (x y : String), x ≠ y ∧
      time (pre ++ post) < time pre + 30 ∧
      (let issued := intern (run (init String) pre) x
       spanByStr (run issued.1 post) issued.2.toHex = some (.ok (some y))) := by
  refine ⟨[.reset, .intern "a", .reset], .reset :: .intern "c" :: List.replicate 28 .reset, "b", "c", ?_⟩
  decide +kernel

/-- Non-vacuity of the partial theorem: an older id has expired *before* `x` is issued, other ids
are issued before and after, and 29 refreshes happen after. -/
example : let pre : List (Op String) := .reset :: .intern "a" :: (List.replicate 30 .reset ++ [.intern "b"])
    let post : List (Op String) := .intern "c" :: List.replicate 29 .reset
    NoneExpiredBetween pre post ∧ time (pre ++ post) < time pre + 30 := by
  refine ⟨?_, by decide⟩
  intro p x q h
  by_cases hp : p.length ≤ 1
  · left
    match p, hp with
    | [], _ => simp at h
    | [a], _ => simp at h; obtain ⟨rfl, -, rfl⟩ := h; decide
  · right
    have h2 := congrArg (fun l => time (l.take p.length)) h
    have h3 := congrArg List.length h
    have h4 := congrArg (·[p.length]?) h
    simp only [List.take_left', List.length_append, List.length_cons, List.length_replicate, List.length_nil] at h2 h3 h4
    have : p.length = 32 := by
      have : ∀ n < 33, 2 ≤ n → n ≠ 32 → ((Op.reset (S := String)) :: .intern "a" :: (List.replicate 30 .reset ++ [.intern "b"]))[n]? = some .reset := by decide
      have hlt : p.length < 33 := by simp at h3; omega
      by_cases h5 : p.length = 32
      · exact h5
      · have := this p.length hlt (by omega) h5
        rw [this] at h4
        simp at h4
    rw [this] at h2
    rw [← h2]
    decide

end Tinymist.Interner
