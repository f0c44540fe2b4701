import Verif.Lemmas.TokenDelta
/-!
# C01: semantic token deltas

Specification: the LSP client.  It stores the token stream as a flat list of integers, five per
token, and applies the edits of a delta response to it.  Nothing here refers to how the server
computes the edits.
-/
namespace Tinymist.TokenDelta.Spec
open Tinymist.TokenDelta

/-- LSP wire format: five integers per token. -/
def wire (ts : List SemanticToken) : List Nat :=
  ts.flatMap fun t => [t.deltaLine, t.deltaStart, t.length, t.tokenType, t.modifiers]

/-- LSP: delete `deleteCount` integers at `start`, insert `data` there. -/
def applyEdit (e : Edit) (held : List Nat) : List Nat :=
  held.take e.start ++ wire e.data ++ held.drop (e.start + e.deleteCount)

/-- LSP: all edits refer to the old stream, so the client applies them last to first. -/
def clientApply (held : List Nat) (edits : List Edit) : List Nat :=
  edits.foldr applyEdit held

end Tinymist.TokenDelta.Spec

namespace Tinymist.TokenDelta
open Spec

theorem wire_append (a b : List SemanticToken) : wire (a ++ b) = wire a ++ wire b := by
  simp [wire]

theorem wire_length (a : List SemanticToken) : (wire a).length = 5 * a.length := by
  induction a with
  | nil => rfl
  | cons x a ih => simp [wire] at *; omega

theorem wire_take (a : List SemanticToken) (n : Nat) (h : n ≤ a.length) :
    (wire a).take (5 * n) = wire (a.take n) := by
  have hl : (wire (a.take n)).length = 5 * n := by rw [wire_length]; simp; omega
  conv => lhs; rw [← List.take_append_drop n a, wire_append, ← hl]
  simp

theorem wire_drop (a : List SemanticToken) (n : Nat) (h : n ≤ a.length) :
    (wire a).drop (5 * n) = wire (a.drop n) := by
  have hl : (wire (a.take n)).length = 5 * n := by rw [wire_length]; simp; omega
  conv => lhs; rw [← List.take_append_drop n a, wire_append, ← hl]
  simp

/-- **C01.** Applying the edits the server sends to the stream the client holds yields exactly the
new stream. -/
theorem token_delta_roundtrip (old new : List SemanticToken) :
    clientApply (wire old) (tokenDelta old new) = wire new := by
  unfold tokenDelta
  generalize hs : commonLen old new = s
  have hso : s ≤ old.length := hs ▸ commonLen_le_left old new
  have hsn : s ≤ new.length := hs ▸ commonLen_le_right old new
  have hpre : old.take s = new.take s := hs ▸ take_commonLen old new
  simp only []
  generalize hd : commonLen (old.drop s).reverse (new.drop s).reverse = d
  have hdo : d ≤ (old.drop s).length := by
    have := commonLen_le_left (old.drop s).reverse (new.drop s).reverse
    simpa [hd] using this
  have hdn : d ≤ (new.drop s).length := by
    have := commonLen_le_right (old.drop s).reverse (new.drop s).reverse
    simpa [hd] using this
  have hsuf := drop_common_suffix (old.drop s) (new.drop s)
  rw [hd] at hsuf
  have hnew : new = old.take s ++ (new.drop s).take ((new.drop s).length - d)
      ++ (old.drop s).drop ((old.drop s).length - d) := by
    rw [hsuf, hpre, List.append_assoc, List.take_append_drop, List.take_append_drop]
  split
  · rename_i h
    simp only [Bool.and_eq_true, List.isEmpty_iff] at h
    have hold : old = old.take s ++ (old.drop s).take ((old.drop s).length - d)
      ++ (old.drop s).drop ((old.drop s).length - d) := by
      rw [List.append_assoc, List.take_append_drop, List.take_append_drop]
    rw [h.2] at hnew
    rw [h.1] at hold
    simp only [clientApply, List.foldr_nil]
    rw [hnew, ← hold]
  · simp only [clientApply, List.foldr_cons, List.foldr_nil, applyEdit]
    rw [wire_take _ _ hso, ← Nat.mul_add, wire_drop _ _ (by simp at hdo ⊢; omega)]
    conv => rhs; rw [hnew]
    simp only [wire_append]
    congr 2
    rw [List.drop_drop]
    congr 1
    simp

/-- **C01.** Every edit stays within the stream the client holds. -/
theorem token_delta_in_bounds (old new : List SemanticToken) :
    ∀ e ∈ tokenDelta old new, e.start + e.deleteCount ≤ (wire old).length := by
  intro e he
  rw [wire_length]
  unfold tokenDelta at he
  have := commonLen_le_left old new
  simp only [] at he
  split at he
  · simp at he
  · simp only [List.mem_singleton] at he
    subst he
    simp only [List.length_take, List.length_drop]
    omega

/-- **C01.** Nothing is sent when nothing changed (and only then). -/
theorem token_delta_empty_iff (old new : List SemanticToken) :
    tokenDelta old new = [] ↔ old = new := by
  constructor
  · intro h
    have := token_delta_roundtrip old new
    rw [h] at this
    simp only [clientApply, List.foldr_nil] at this
    clear h
    induction old generalizing new with
    | nil => cases new with
      | nil => rfl
      | cons y b => simp [wire] at this
    | cons x a ih => cases new with
      | nil => simp [wire] at this
      | cons y b =>
        simp only [wire, List.flatMap_cons, List.cons_append, List.nil_append, List.cons.injEq] at this
        obtain ⟨h1, h2, h3, h4, h5, h6⟩ := this
        rw [ih b h6]
        cases x; cases y; simp_all
  · rintro rfl
    simp [tokenDelta, commonLen_self]

/-- Non-vacuity: prefix and suffix of these two streams overlap. -/
example :
    let t : SemanticToken := ⟨0, 1, 1, 2, 0⟩
    let u : SemanticToken := ⟨1, 0, 3, 4, 1⟩
    tokenDelta [t, t] [t, t, t] = [⟨10, 0, [t]⟩] ∧
    tokenDelta [t, u, t] [t, t] = [⟨5, 5, []⟩] ∧
    clientApply (wire [t, u, t]) (tokenDelta [t, u, t] [u, t, t]) = wire [u, t, t] := by
  decide

end Tinymist.TokenDelta
