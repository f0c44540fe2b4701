import Verif.Lemmas.Outline2
import Verif.Spec.Symbols

/-! Which items of the stack of the hierarchy worker are looked at. -/

namespace Tinymist.Symbols

open Sections

/-- The items looked at if all entries of a stack, given from below, were finished. -/
def shown : List Frame → List Info
  | [] => []
  | [b] => lookedAt b.2
  | [b, f] => lookedAt b.2 ++ f.1 :: f.2.map root
  | b :: f :: g :: _ => lookedAt b.2 ++ f.1 :: (f.2.map root ++ [g.1])

theorem lookedAt_append (a b : List Tree) : lookedAt (a ++ b) = lookedAt a ++ lookedAt b := by
  induction a with
  | nil => rfl
  | cons t a ih => cases t; simp [lookedAt, ih]

theorem shown_attach (up : List Frame) (p top : Frame) : shown (up ++ [attach p top]) = shown (up ++ [p, top]) := by
  cases up with
  | nil => simp [shown, attach, lookedAt_append, lookedAt]
  | cons a up =>
    cases up with
    | nil => simp [shown, attach, root]
    | cons b up =>
      cases up with
      | nil => simp [shown, attach]
      | cons c up => simp [shown]

def visible (s : Stack) : List Info := shown (s.1 :: s.2).reverse

theorem visible_attach (p top : Frame) (rest : List Frame) : visible (attach p top, rest) = visible (top, p :: rest) := by
  simp only [visible, List.reverse_cons, List.append_assoc]
  exact shown_attach _ _ _

theorem visible_finishTo (n : Nat) (top : Frame) (rest : List Frame) : visible (finishTo n top rest) = visible (top, rest) := by
  induction rest generalizing top with
  | nil => rfl
  | cons p rest ih =>
    rw [finishTo]
    split
    · rfl
    · rw [ih, visible_attach]

theorem visible_breakTo (l : Nat) (top : Frame) (rest : List Frame) : visible (breakTo l top rest) = visible (top, rest) := by
  induction rest generalizing top with
  | nil => rfl
  | cons p rest ih =>
    rw [breakTo]
    split
    · rfl
    · rw [ih, visible_attach]

theorem shown_mono (up : List Frame) (f : Frame) : ∀ i ∈ shown up, i ∈ shown (up ++ [f]) := by
  intro i hi
  cases up with
  | nil => cases hi
  | cons a up =>
    cases up with
    | nil => simp [shown] at hi ⊢; exact .inl hi
    | cons b up =>
      cases up with
      | nil =>
        simp [shown] at hi ⊢
        rcases hi with hi | hi | hi
        · exact .inl hi
        · exact .inr (.inl hi)
        · exact .inr (.inr (.inl hi))
      | cons c up => simpa [shown] using hi

theorem visible_push (j : Info) (s : Stack) : ∀ i ∈ visible s, i ∈ visible (push j s) := by
  intro i hi
  simp only [visible, push]
  rw [List.reverse_cons]
  exact shown_mono _ _ i hi

theorem visible_open (k : Kind) (s : Stack) : visible (open_ k s) = visible s := by
  unfold open_; split
  · exact visible_breakTo _ _ _
  · rfl

theorem visible_close (k : Kind) (n : Nat) (s : Stack) : visible (close k n s) = visible s := by
  unfold close; split <;> exact visible_finishTo _ _ _

mutual
theorem visible_check : ∀ (n : Node) (s : Stack), ∀ i ∈ visible s, i ∈ visible (check n s)
  | .item j children, s => by
    intro i hi
    rw [check, visible_close]
    refine visible_checks children _ i (visible_push _ _ i ?_)
    rw [visible_open]; exact hi
  | .comment _ _, s => by rw [check]; exact visible_push _ _

theorem visible_checks : ∀ (ns : List Node) (s : Stack), ∀ i ∈ visible s, i ∈ visible (checks ns s)
  | [], s => by rw [checks]; exact fun _ h => h
  | n :: ns, s => by
    intro i hi
    rw [checks]
    exact visible_checks ns _ i (visible_check n s i hi)
end

theorem lookedAt_hierarchy (doc : List Node) : lookedAt (hierarchy doc) = visible (checks doc (bottom, [])) := by
  rw [hierarchy, ← visible_finishTo 1]
  have h := finishTo_one (checks doc (bottom, [])).1 (checks doc (bottom, [])).2
  generalize finishTo 1 (checks doc (bottom, [])).1 (checks doc (bottom, [])).2 = f at h
  obtain ⟨a, b⟩ := f
  simp only at h
  subst h
  rfl

/-! ## Headings stand above headings of a lesser level -/

/-- Each heading of a stack, given from above, stands on one of a lesser level or on a block. -/
def Stacked : List Info → Prop
  | [] => True
  | [_] => True
  | i :: j :: is => (∀ l, i.kind = .heading l → stops l j.kind = true) ∧ Stacked (j :: is)

theorem Stacked.tail {i : Info} {is : List Info} (h : Stacked (i :: is)) : Stacked is := by
  cases is with
  | nil => trivial
  | cons j is => exact h.2

def Good (s : Stack) : Prop := Stacked ((s.1 :: s.2).map (·.1)) ∧ ((s.1 :: s.2).map (·.1)).getLast? = some bottom.1

theorem good_attach {p top : Frame} {rest : List Frame} (h : Good (top, p :: rest)) : Good (attach p top, rest) := by
  obtain ⟨h1, h2⟩ := h
  refine ⟨?_, ?_⟩
  · simpa [attach] using h1.tail
  · simpa [attach] using h2

theorem good_finishTo (n : Nat) (top : Frame) (rest : List Frame) (h : Good (top, rest)) : Good (finishTo n top rest) := by
  induction rest generalizing top with
  | nil => exact h
  | cons p rest ih =>
    rw [finishTo]
    split
    · exact h
    · exact ih _ (good_attach h)

theorem good_breakTo (l : Nat) (top : Frame) (rest : List Frame) (h : Good (top, rest)) :
    Good (breakTo l top rest) ∧ stops l (breakTo l top rest).1.1.kind = true := by
  induction rest generalizing top with
  | nil =>
    refine ⟨h, ?_⟩
    have := h.2
    simp at this
    show stops l top.1.kind = true
    rw [this]; rfl
  | cons p rest ih =>
    rw [breakTo]
    split
    · rename_i hs; exact ⟨h, hs⟩
    · exact ih _ (good_attach h)

theorem good_push {i : Info} {s : Stack} (h : Good s) (hi : ∀ l, i.kind = .heading l → stops l s.1.1.kind = true) :
    Good (push i s) := by
  obtain ⟨h1, h2⟩ := h
  exact ⟨⟨hi, h1⟩, by simpa [push] using h2⟩

theorem good_open_push {i : Info} {s : Stack} (h : Good s) : Good (push i (open_ i.kind s)) := by
  unfold open_
  split
  · rename_i l e
    obtain ⟨h1, h2⟩ := good_breakTo l s.1 s.2 h
    exact good_push h1 fun k hk => by rw [e] at hk; cases hk; exact h2
  · rename_i hn
    exact good_push h fun k hk => (hn k hk).elim

theorem good_close {k : Kind} {n : Nat} {s : Stack} (h : Good s) : Good (close k n s) := by
  unfold close; split <;> exact good_finishTo _ _ _ h

mutual
theorem good_check : ∀ (n : Node) (s : Stack), Good s → Good (check n s)
  | .item i children, s, h => by
    rw [check]
    exact good_close (good_checks children _ (good_open_push h))
  | .comment _ _, s, h => by
    rw [check]
    exact good_push h fun l hl => by cases hl

theorem good_checks : ∀ (ns : List Node) (s : Stack), Good s → Good (checks ns s)
  | [], s, h => by rw [checks]; exact h
  | n :: ns, s, h => by rw [checks]; exact good_checks ns _ (good_check n s h)
end

/-! ## The items of a stack are those of the document -/

theorem mem_order {s : Stack} {f : Frame} (h : f ∈ s.1 :: s.2) : f.1 ∈ order s := by
  simp only [order, List.mem_append, List.mem_flatMap, List.mem_reverse, List.mem_cons]
  rcases List.mem_cons.mp h with rfl | h
  · exact .inr (.inl rfl)
  · exact .inl ⟨f, h, .inl rfl⟩

theorem order_start (doc : List Node) : order (checks doc (bottom, [])) = bottom.1 :: infos doc := by
  rw [order_checks]; rfl

end Tinymist.Symbols
