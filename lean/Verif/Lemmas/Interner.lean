import Verif.Lemmas.RustNum
import Verif.Spec.Interner
import Verif.Lemmas.Util
namespace Tinymist.Interner
open Spec RustNum
variable {S : Type} 

theorem fromU64_toU64 {i : InternId} (hl : i.lifetime < 2 ^ 32) (hi : i.id < 2 ^ 32) :
    InternId.fromU64 i.toU64 = i := by
  obtain ⟨l, d⟩ := i
  simp only at hl hi
  have e : l <<< 32 ||| d = l <<< 32 + d := (Nat.shiftLeft_add_eq_or_of_lt hi l).symm
  have m : (0xffffffff : Nat) = 2 ^ 32 - 1 := by decide
  simp only [InternId.fromU64, InternId.toU64]
  rw [e]
  simp only [m, Nat.and_two_pow_sub_one_eq_mod,
    Nat.shiftRight_eq_div_pow, Nat.shiftLeft_eq, InternId.mk.injEq]
  omega

theorem toU64_lt {i : InternId} (hl : i.lifetime < 2 ^ 32) (hi : i.id < 2 ^ 32) :
    i.toU64 ≤ 2 ^ 64 - 1 := by
  have e : i.lifetime <<< 32 ||| i.id = i.lifetime <<< 32 + i.id :=
    (Nat.shiftLeft_add_eq_or_of_lt hi _).symm
  unfold InternId.toU64
  rw [e, Nat.shiftLeft_eq]
  omega

theorem time_append (a b : List (Op S)) : time (a ++ b) = time a + time b := by
  induction a with
  | nil => simp [time]
  | cons o a ih => cases o <;> simp [time, ih] <;> omega

theorem requests_append (a b : List (Op S)) : requests (a ++ b) = requests a + requests b := by
  induction a with
  | nil => simp [requests]
  | cons o a ih => cases o <;> simp [requests, ih] <;> omega

variable [DecidableEq S]

theorem run_append (s : State S) (a b : List (Op S)) : run s (a ++ b) = run (run s a) b := by
  simp [run]

theorem run_lifetime (ops : List (Op S)) (s : State S) : (run s ops).lifetime = s.lifetime + time ops := by
  induction ops generalizing s with
  | nil => simp [run, time]
  | cons o ops ih =>
    have : run s (o :: ops) = run (step s o) ops := rfl
    rw [this, ih]
    cases o with
    | reset => simp [step, reset, time]; omega
    | intern x =>
      simp only [step, intern, time]
      split <;> simp

theorem run_length (ops : List (Op S)) (s : State S) :
    (run s ops).items.length ≤ s.items.length + requests ops := by
  induction ops generalizing s with
  | nil => simp [run, requests]
  | cons o ops ih =>
    have : run s (o :: ops) = run (step s o) ops := rfl
    rw [this]
    refine Nat.le_trans (ih _) ?_
    cases o with
    | reset =>
      simp only [step, reset, requests]
      have := List.length_filter_le (fun it : Nat × S => decide (s.lifetime + 1 - it.1 < threshold)) s.items
      omega
    | intern x =>
      simp only [step, intern, requests]
      split <;> simp; omega

/-- Every stored item was interned at its lifetime and has not expired. -/
theorem items_from_history (ops : List (Op S)) :
    ∀ it ∈ (run (init S) ops).items,
      (∃ p x q, ops = p ++ .intern x :: q ∧ it = (time p + 1, x)) ∧ time ops < it.1 + 29 := by
  induction ops using Util.reverseInd with
  | nil => simp [run, init]
  | append_singleton ops o ih =>
    intro it hit
    rw [run_append] at hit
    have hs : run (run (init S) ops) [o] = step (run (init S) ops) o := rfl
    rw [hs] at hit
    have hl : (run (init S) ops).lifetime = 1 + time ops := run_lifetime ops (init S)
    cases o with
    | reset =>
      simp only [step, reset, List.mem_filter] at hit
      have hd := of_decide_eq_true hit.2
      simp only [threshold] at hd
      obtain ⟨⟨p, x, q, h1, h2⟩, h3⟩ := ih it hit.1
      refine ⟨⟨p, x, q ++ [.reset], by simp [h1], h2⟩, ?_⟩
      rw [hl] at hd
      simp only [time_append, time]
      omega
    | intern x =>
      have hcase : it ∈ (run (init S) ops).items ∨ it = (1 + time ops, x) := by
        simp only [step, intern] at hit
        split at hit
        · exact .inl hit
        · simp only [List.mem_append, List.mem_singleton, hl] at hit
          exact hit
      rcases hcase with hit | rfl
      · obtain ⟨⟨p, y, q, h1, h2⟩, h3⟩ := ih it hit
        refine ⟨⟨p, y, q ++ [.intern x], by simp [h1], h2⟩, ?_⟩
        simp only [time_append, time]; omega
      · refine ⟨⟨ops, x, [], by simp, by simp [Nat.add_comm]⟩, ?_⟩
        simp only [time_append, time]; omega

/-- While no item of `s` expires, later operations only append. -/
theorem run_prefix (post : List (Op S)) (s : State S)
    (h : ∀ it ∈ s.items, s.lifetime + time post < it.1 + 30) :
    s.items <+: (run s post).items := by
  induction post generalizing s with
  | nil => exact List.prefix_rfl
  | cons o post ih =>
    have hr : run s (o :: post) = run (step s o) post := rfl
    rw [hr]
    cases o with
    | reset =>
      have hf : (reset s).items = s.items := by
        simp only [reset]
        rw [List.filter_eq_self]
        intro it hit
        have := h it hit
        simp only [time] at this
        simp only [threshold]
        apply decide_eq_true
        omega
      have := ih (reset s) (by
        intro it hit
        rw [hf] at hit
        have := h it hit
        simp only [time] at this
        simp only [reset]; omega)
      rw [hf] at this
      exact this
    | intern x =>
      simp only [step, intern]
      split
      · exact ih s (by intro it hit; simpa [time] using h it hit)
      · have hx : s.lifetime + time post < s.lifetime + 30 ∨ s.lifetime + 30 ≤ s.lifetime + time post := by omega
        rcases hx with hx | hx
        · have := ih { s with items := s.items ++ [(s.lifetime, x)] } (by
            intro it hit
            simp only [List.mem_append, List.mem_singleton] at hit
            rcases hit with hit | rfl
            · simpa [time] using h it hit
            · exact hx)
          exact (List.prefix_append _ _).trans this
        · -- the new item expires later, but it is behind all items of `s`
          have key : ∀ (post : List (Op S)) (t : State S) (pre suf : List (Nat × S)), t.items = pre ++ suf →
              (∀ it ∈ pre, t.lifetime + time post < it.1 + 30) → pre <+: (run t post).items := by
            intro post
            induction post with
            | nil => intro t pre suf he _; rw [show run t [] = t from rfl, he]; exact List.prefix_append _ _
            | cons o post ih2 =>
              intro t pre suf he hp
              have hr : run t (o :: post) = run (step t o) post := rfl
              rw [hr]
              cases o with
              | reset =>
                refine ih2 _ pre (suf.filter fun it => decide (t.lifetime + 1 - it.1 < threshold)) ?_ ?_
                · simp only [step, reset, he, List.filter_append]
                  congr 1
                  rw [List.filter_eq_self]
                  intro it hit
                  have := hp it hit
                  simp only [time] at this
                  simp only [threshold]
                  apply decide_eq_true
                  omega
                · intro it hit
                  have := hp it hit
                  simp only [time] at this
                  simp only [step, reset]; omega
              | intern y =>
                simp only [step, intern]
                split
                · exact ih2 t pre suf he (by intro it hit; simpa [time] using hp it hit)
                · refine ih2 _ pre (suf ++ [(t.lifetime, y)]) (by simp [he]) ?_
                  intro it hit; simpa [time] using hp it hit
          exact key post _ s.items [(s.lifetime, x)] rfl (by intro it hit; simpa [time] using h it hit)

end Tinymist.Interner
