import Verif.Spec.Outline

/-!
# C43: the outline of the preview
-/

namespace Tinymist.Outline

mutual
/-- The headings on the way down through the last children. -/
def spine : List Node → List Heading
  | [] => []
  | [n] => spineOf n
  | _ :: m :: ns => spine (m :: ns)

def spineOf : Node → List Heading
  | .mk h cs => h :: spine cs
end

mutual
theorem spine_push (g : Nat → Bool) (leaf : Heading) : ∀ ts : List Node,
    spine (push g leaf ts) = (spine ts).takeWhile (fun h => g h.level) ++ [leaf]
  | [] => by simp [push, spine, spineOf]
  | [n] => by
    cases n with
    | mk h cs =>
      rw [push]
      by_cases e : g (Node.mk h cs).level
      · rw [if_pos e]
        have e' : g h.level = true := e
        simp only [spine]
        rw [spine_pushInto g leaf (.mk h cs), spineOf, List.takeWhile_cons, if_pos e']
        rfl
      · rw [if_neg e]
        have e' : ¬ g h.level = true := e
        simp only [spine, spineOf]
        rw [List.takeWhile_cons, if_neg e']
        rfl
  | n :: m :: ns => by
    rw [push]
    have ih := spine_push g leaf (m :: ns)
    cases hp : push g leaf (m :: ns) with
    | nil => rw [hp] at ih; simp [spine] at ih
    | cons a as =>
      rw [hp] at ih
      show spine (n :: a :: as) = _
      rw [spine, ih, spine]

theorem spine_pushInto (g : Nat → Bool) (leaf : Heading) : ∀ n : Node,
    spineOf (pushInto g leaf n) = (match n with | .mk h _ => [h]) ++
      ((spineOf n).drop 1).takeWhile (fun h => g h.level) ++ [leaf]
  | .mk h cs => by
    rw [pushInto, spineOf, spine_push g leaf cs, spineOf]
    simp
end

/-- Where a push puts the leaf. -/
def above (g : Nat → Bool) (p : Option Nat) (sp : List Heading) : Option Nat :=
  match (sp.takeWhile (fun h => g h.level)).getLast? with
  | none => p
  | some h => some h.loc

theorem above_cons (g : Nat → Bool) (p : Option Nat) (h : Heading) (sp : List Heading) (e : g h.level = true) :
    above g p (h :: sp) = above g (some h.loc) sp := by
  unfold above
  rw [List.takeWhile_cons, if_pos e]
  cases hs : sp.takeWhile (fun h => g h.level) with
  | nil => rfl
  | cons a as =>
    rw [List.getLast?_cons_cons]
    cases hl : (a :: as).getLast? with
    | none => simp at hl
    | some b => rfl

mutual
theorem entries_push (g : Nat → Bool) (leaf : Heading) : ∀ (p : Option Nat) (ts : List Node),
    entries p (push g leaf ts) = entries p ts ++ [(above g p (spine ts), leaf.loc)]
  | p, [] => by simp [push, entries, entriesOf, spine, above]
  | p, [n] => by
    rw [push]
    by_cases e : g n.level
    · rw [if_pos e]
      rw [entries, entries, entries_pushInto g leaf p n e]
      simp [entries, spine]
    · rw [if_neg e]
      cases n with
      | mk h cs =>
        have e' : ¬ g h.level = true := e
        simp [entries, entriesOf, spine, spineOf, above, List.takeWhile_cons, e']
  | p, n :: m :: ns => by
    rw [push, entries, entries_push g leaf p (m :: ns), spine]
    conv => rhs; rw [entries]
    rw [List.append_assoc]

theorem entries_pushInto (g : Nat → Bool) (leaf : Heading) : ∀ (p : Option Nat) (n : Node), g n.level = true →
    entriesOf p (pushInto g leaf n) = entriesOf p n ++ [(above g p (spineOf n), leaf.loc)]
  | p, .mk h cs, e => by
    rw [pushInto, entriesOf, entries_push g leaf (some h.loc) cs, entriesOf, spineOf, above_cons g p h _ e]
    simp
end

/-! ## The invariant -/

/-- Below the limit set by the headings skipped last. -/
def under : Option Nat → Nat → Prop
  | none, _ => True
  | some l, k => k < l

theorem goes_iff (b : Option Nat) (level last : Nat) : goes b level last = true ↔ under b last ∧ last < level := by
  unfold goes under
  cases b <;> simp

/-- What holds after the first `n` headings. -/
structure Inv (ls : Levels) (n : Nat) (s : List Node × Option Nat) : Prop where
  order : (entries none s.1).map (·.2) = (List.range n).filter (fun i => (ls[i]?.map (·.2)) = some true)
  belongs : ∀ e ∈ entries none s.1, Belongs ls e.1 e.2
  locs : (spine s.1).Pairwise (fun a b => a.loc < b.loc)
  levels : (spine s.1).Pairwise (fun a b => a.level < b.level)
  real : ∀ h ∈ spine s.1, ls[h.loc]? = some (h.level, true)
  opened : ∀ i, (∃ h ∈ spine s.1, h.loc = i ∧ under s.2 h.level) ↔
    (i < n ∧ Shown ls i ∧ ∃ p, ls[i]? = some p ∧ ∀ k q, i < k → k < n → ls[k]? = some q → p.1 < q.1)

theorem inv_init (ls : Levels) : Inv ls 0 ([], none) where
  order := by simp [entries]
  belongs := by simp [entries]
  locs := by simp [spine]
  levels := by simp [spine]
  real := by simp [spine]
  opened := by simp [spine]

theorem takeWhile_mem {sp : List Heading} (hl : sp.Pairwise (fun a b => a.level < b.level)) (b : Option Nat)
    (L : Nat) (h : Heading) :
    h ∈ sp.takeWhile (fun h => goes b L h.level) ↔ h ∈ sp ∧ under b h.level ∧ h.level < L := by
  induction sp with
  | nil => simp
  | cons a sp ih =>
    rw [List.pairwise_cons] at hl
    rw [List.takeWhile_cons]
    split
    · rename_i e
      rw [List.mem_cons, List.mem_cons, ih hl.2]
      have e' := (goes_iff b L a.level).mp e
      constructor
      · rintro (rfl | h')
        · exact ⟨.inl rfl, e'⟩
        · exact ⟨.inr h'.1, h'.2⟩
      · rintro ⟨rfl | h1, h2⟩
        · exact .inl rfl
        · exact .inr ⟨h1, h2⟩
    · rename_i e
      constructor
      · intro h'; cases h'
      · rintro ⟨h1, h2⟩
        exfalso
        apply e
        rw [goes_iff]
        rcases List.mem_cons.mp h1 with rfl | h1
        · exact h2
        · have := hl.1 h h1
          refine ⟨?_, by omega⟩
          have h3 := h2.1
          unfold under at h3 ⊢
          cases b with
          | none => trivial
          | some l => simp only at h3 ⊢; omega

theorem inv_step (ls : Levels) (n : Nat) (s : List Node × Option Nat) (l : Nat) (b : Bool)
    (hn : ls[n]? = some (l, b)) (h : Inv ls n s) : Inv ls (n + 1) (step s ⟨l, b, n⟩) := by
  have split_n : ∀ (P : Nat → Nat × Bool → Prop) (i : Nat), i < n →
      ((∀ k q, i < k → k < n + 1 → ls[k]? = some q → P k q) ↔
        (∀ k q, i < k → k < n → ls[k]? = some q → P k q) ∧ P n (l, b)) := by
    intro P i hi
    constructor
    · intro H
      exact ⟨fun k q h1 h2 h3 => H k q h1 (by omega) h3, H n (l, b) hi (by omega) hn⟩
    · rintro ⟨H1, H2⟩ k q h1 h2 h3
      by_cases e : k = n
      · subst e; rw [hn] at h3; injection h3 with h3; subst h3; exact H2
      · exact H1 k q h1 (by omega) h3
  cases b with
  | true =>
    have es : step s ⟨l, true, n⟩ = (push (goes s.2 l) ⟨l, true, n⟩ s.1, none) := rfl
    rw [es]
    have mem_iff := takeWhile_mem h.levels s.2 l
    -- what is above the new heading: the open shown sections it is in
    have sec : ∀ i, (∃ a ∈ (spine s.1).takeWhile (fun a => goes s.2 l a.level), a.loc = i) ↔
        Shown ls i ∧ InSection ls i n := by
      intro i
      constructor
      · rintro ⟨a, ha, rfl⟩
        rw [mem_iff] at ha
        obtain ⟨ha, hu, hlt⟩ := ha
        have := (h.opened a.loc).mp ⟨a, ha, rfl, hu⟩
        obtain ⟨hi, hs, p, hp, hk⟩ := this
        refine ⟨hs, hi, p, hp, ?_⟩
        intro k q h1 h2 h3
        have := (split_n (fun _ q => p.1 < q.1) a.loc hi).mpr ⟨hk, by
          have := h.real a ha
          rw [this] at hp; injection hp with hp; subst hp; exact hlt⟩
        exact this k q h1 (by omega) h3
      · rintro ⟨hs, hi, p, hp, hk⟩
        obtain ⟨a, ha, hloc, hu⟩ := (h.opened i).mpr ⟨hi, hs, p, hp, fun k q h1 h2 h3 => hk k q h1 (by omega) h3⟩
        refine ⟨a, (mem_iff a).mpr ⟨ha, hu, ?_⟩, hloc⟩
        have h1 := h.real a ha
        rw [hloc, hp] at h1
        injection h1 with h1
        subst h1
        exact hk n (l, true) hi (Nat.le_refl _) hn
    refine ⟨?_, ?_, ?_, ?_, ?_, ?_⟩
    · show (entries none (push _ _ _)).map _ = _
      rw [entries_push, List.map_append, h.order, List.range_succ, List.filter_append]
      simp [hn]
    · intro e he
      change e ∈ entries none (push _ _ _) at he
      rw [entries_push, List.mem_append, List.mem_singleton] at he
      rcases he with he | rfl
      · exact h.belongs e he
      · show Belongs ls (above _ none (spine s.1)) n
        unfold above
        cases hg : ((spine s.1).takeWhile (fun a => goes s.2 l a.level)).getLast? with
        | none =>
          rw [List.getLast?_eq_none_iff] at hg
          intro i hs hi
          obtain ⟨a, ha, _⟩ := (sec i).mpr ⟨hs, hi⟩
          rw [hg] at ha; cases ha
        | some a =>
          have ha := List.mem_of_getLast? hg
          obtain ⟨h1, h2⟩ := (sec a.loc).mp ⟨a, ha, rfl⟩
          refine ⟨h1, h2, ?_⟩
          intro i hs hi
          obtain ⟨c, hc, rfl⟩ := (sec i).mpr ⟨hs, hi⟩
          obtain ⟨ys, hys⟩ := List.getLast?_eq_some_iff.mp hg
          have hp : ((spine s.1).takeWhile (fun a => goes s.2 l a.level)).Pairwise (fun a b => a.loc < b.loc) :=
            h.locs.sublist (List.takeWhile_sublist _)
          rw [hys, List.pairwise_append] at hp
          rw [hys, List.mem_append, List.mem_singleton] at hc
          rcases hc with hc | rfl
          · exact Nat.le_of_lt (hp.2.2 c hc a (by simp))
          · exact Nat.le_refl _
    · show (spine (push _ _ _)).Pairwise _
      rw [spine_push, List.pairwise_append]
      refine ⟨h.locs.sublist (List.takeWhile_sublist _), by simp, ?_⟩
      intro a ha c hc
      rw [List.mem_singleton] at hc; subst hc
      obtain ⟨_, h2⟩ := (sec a.loc).mp ⟨a, ha, rfl⟩
      exact h2.1
    · show (spine (push _ _ _)).Pairwise _
      rw [spine_push, List.pairwise_append]
      refine ⟨h.levels.sublist (List.takeWhile_sublist _), by simp, ?_⟩
      intro a ha c hc
      rw [List.mem_singleton] at hc; subst hc
      exact ((mem_iff a).mp ha).2.2
    · intro a ha
      change a ∈ spine (push _ _ _) at ha
      rw [spine_push, List.mem_append, List.mem_singleton] at ha
      rcases ha with ha | rfl
      · exact h.real a ((List.takeWhile_sublist _).subset ha)
      · exact hn
    · intro i
      show (∃ a ∈ spine (push _ _ _), _) ↔ _
      rw [spine_push]
      constructor
      · rintro ⟨a, ha, rfl, _⟩
        rw [List.mem_append, List.mem_singleton] at ha
        rcases ha with ha | rfl
        · obtain ⟨h1, hi, p, hp, hk⟩ := (sec a.loc).mp ⟨a, ha, rfl⟩
          exact ⟨by omega, h1, p, hp, fun k q h1 h2 h3 => hk k q h1 (by omega) h3⟩
        · refine ⟨Nat.lt_succ_self n, ⟨l, hn⟩, _, hn, ?_⟩
          intro k q h1 h2
          simp only at h1
          omega
      · rintro ⟨hi, hs, p, hp, hk⟩
        by_cases e : i = n
        · subst e
          exact ⟨⟨l, true, i⟩, by simp, rfl, trivial⟩
        · obtain ⟨a, ha, hloc⟩ := (sec i).mpr ⟨hs, by omega, p, hp, fun k q h1 h2 h3 => hk k q h1 (by omega) h3⟩
          exact ⟨a, List.mem_append_left _ ha, hloc, trivial⟩
  | false =>
    -- a skipped heading only lowers the limit
    obtain ⟨m, hm, hmin⟩ : ∃ m, step s ⟨l, false, n⟩ = (s.1, some m) ∧
        (∀ k, k < m ↔ under s.2 k ∧ k < l) ∨ step s ⟨l, false, n⟩ = (s.1, some m) ∧
        (∀ k, k < m ↔ under s.2 k) ∧ m ≤ l := by
      unfold step
      simp only [Bool.false_eq_true, if_false]
      cases hs : s.2 with
      | none => exact ⟨l, .inl ⟨rfl, by simp [under]⟩⟩
      | some l' =>
        simp only
        split
        · exact ⟨l, .inl ⟨rfl, by simp [under]; omega⟩⟩
        · exact ⟨l', .inr ⟨by rw [← hs], by simp [under], by omega⟩⟩
    · rw [hm]
      exact ⟨by
          show (entries none s.1).map _ = _
          rw [h.order, List.range_succ, List.filter_append]; simp [hn], h.belongs, h.locs, h.levels, h.real, by
        intro i
        show (∃ a ∈ spine s.1, a.loc = i ∧ a.level < m) ↔ _
        constructor
        · rintro ⟨a, ha, rfl, hu⟩
          rw [hmin] at hu
          obtain ⟨hi, hs, p, hp, hk⟩ := (h.opened a.loc).mp ⟨a, ha, rfl, hu.1⟩
          refine ⟨by omega, hs, p, hp, (split_n (fun _ q => p.1 < q.1) a.loc hi).mpr ⟨hk, ?_⟩⟩
          have := h.real a ha
          rw [this] at hp; injection hp with hp; subst hp; exact hu.2
        · rintro ⟨hi, hs, p, hp, hk⟩
          have hi' : i < n := by
            rcases Nat.lt_or_ge i n with h' | h'
            · exact h'
            · exfalso
              have : i = n := by omega
              subst this
              obtain ⟨l', hl'⟩ := hs
              rw [hn] at hl'; cases hl'
          have hk' := (split_n (fun _ q => p.1 < q.1) i hi').mp hk
          obtain ⟨a, ha, hloc, hu⟩ := (h.opened i).mpr ⟨hi', hs, p, hp, hk'.1⟩
          refine ⟨a, ha, hloc, (hmin _).mpr ⟨hu, ?_⟩⟩
          have h1 := h.real a ha
          rw [hloc, hp] at h1
          injection h1 with h1; subst h1
          exact hk'.2⟩
    · rename_i hx
      obtain ⟨hm, hmin, hle⟩ := hx
      rw [hm]
      exact ⟨by
          show (entries none s.1).map _ = _
          rw [h.order, List.range_succ, List.filter_append]; simp [hn], h.belongs, h.locs, h.levels, h.real, by
        intro i
        show (∃ a ∈ spine s.1, a.loc = i ∧ a.level < m) ↔ _
        constructor
        · rintro ⟨a, ha, rfl, hu⟩
          obtain ⟨hi, hs, p, hp, hk⟩ := (h.opened a.loc).mp ⟨a, ha, rfl, (hmin _).mp hu⟩
          refine ⟨by omega, hs, p, hp, (split_n (fun _ q => p.1 < q.1) a.loc hi).mpr ⟨hk, ?_⟩⟩
          have := h.real a ha
          rw [this] at hp; injection hp with hp; subst hp
          show a.level < l
          omega
        · rintro ⟨hi, hs, p, hp, hk⟩
          have hi' : i < n := by
            rcases Nat.lt_or_ge i n with h' | h'
            · exact h'
            · exfalso
              have : i = n := by omega
              subst this
              obtain ⟨l', hl'⟩ := hs
              rw [hn] at hl'; cases hl'
          have hk' := (split_n (fun _ q => p.1 < q.1) i hi').mp hk
          obtain ⟨a, ha, hloc, hu⟩ := (h.opened i).mpr ⟨hi', hs, p, hp, hk'.1⟩
          exact ⟨a, ha, hloc, (hmin _).mpr hu⟩⟩

theorem headings_take (ls : Levels) (n : Nat) (l : Nat) (b : Bool) (hn : ls[n]? = some (l, b)) :
    (headings ls).take (n + 1) = (headings ls).take n ++ [⟨l, b, n⟩] := by
  have : (headings ls)[n]? = some ⟨l, b, n⟩ := by simp [headings, hn]
  rw [List.take_add_one, this]; rfl

theorem inv_all (ls : Levels) (n : Nat) (hn : n ≤ ls.length) :
    Inv ls n (((headings ls).take n).foldl step ([], none)) := by
  induction n with
  | zero => exact inv_init ls
  | succ n ih =>
    have he : ls[n]? = some (ls[n]'hn) := by simp
    obtain ⟨l, b, hlb⟩ : ∃ l b, ls[n]? = some (l, b) := ⟨_, _, he⟩
    rw [headings_take ls n l b hlb, List.foldl_append]
    exact inv_step ls n _ l b hlb (ih (by omega))

/-- The tree of `getOutline`, empty for `None`. -/
def tree (hs : List Heading) : List Node := (getOutline hs).getD []

theorem tree_eq (hs : List Heading) : tree hs = (hs.foldl step ([], none)).1 := by
  unfold tree getOutline
  simp only
  split
  · rename_i h; simp only [Option.getD_none]; exact (List.isEmpty_iff.mp h).symm
  · rfl

theorem inv_tree (ls : Levels) : Inv ls ls.length ((headings ls).foldl step ([], none)) := by
  have := inv_all ls ls.length (Nat.le_refl _)
  rwa [List.take_of_length_le (by simp [headings])] at this

/-- **C43, order.** Read from top to bottom the outline lists exactly the bookmarked headings, each once, in document
order. -/
theorem lists_bookmarked (ls : Levels) :
    (entries none (tree (headings ls))).map (·.2) =
      (List.range ls.length).filter (fun i => (ls[i]?.map (·.2)) = some true) := by
  rw [tree_eq]; exact (inv_tree ls).order

/-- **C43, nesting.** Every heading is where it belongs: under the innermost bookmarked heading whose section it is
in, or at the top when there is none. -/
theorem nested_rightly (ls : Levels) (parent : Option Nat) (i : Nat)
    (h : (parent, i) ∈ entries none (tree (headings ls))) : Belongs ls parent i := by
  rw [tree_eq] at h; exact (inv_tree ls).belongs _ h

/-- Where a heading belongs is determined. -/
theorem belongs_unique (ls : Levels) (p q : Option Nat) (j : Nat) (hp : Belongs ls p j) (hq : Belongs ls q j) : p = q := by
  cases p with
  | none =>
    cases q with
    | none => rfl
    | some i => exact absurd hq.2.1 (hp i hq.1)
  | some i =>
    cases q with
    | none => exact absurd hp.2.1 (hq i hp.1)
    | some i' =>
      have h1 := hp.2.2 i' hq.1 hq.2.1
      have h2 := hq.2.2 i hp.1 hp.2.1
      rw [Nat.le_antisymm h1 h2]

/-- There is an outline iff a heading is bookmarked. -/
theorem outline_iff (ls : Levels) : (getOutline (headings ls)).isSome = true ↔ ∃ i, Shown ls i := by
  have ho := lists_bookmarked ls
  have hd : ∀ ts : List Node, entries none ts = [] ↔ ts = [] := by
    intro ts
    cases ts with
    | nil => simp [entries]
    | cons n ns => cases n; simp [entries, entriesOf]
  have he : (getOutline (headings ls)).isSome = true ↔ tree (headings ls) ≠ [] := by
    rw [tree_eq]
    unfold getOutline
    simp only
    split
    · rename_i h; simp [List.isEmpty_iff.mp h]
    · rename_i h; simpa [List.isEmpty_iff] using h
  rw [he, ne_eq, ← hd, ← List.map_eq_nil_iff (f := (·.2)), ho, List.filter_eq_nil_iff]
  constructor
  · intro h
    rw [Classical.not_forall] at h
    obtain ⟨i, h⟩ := h
    refine ⟨i, ?_⟩
    have : (ls[i]?.map (·.2)) = some true := by
      apply Classical.byContradiction
      intro h'
      exact h (fun _ => by simpa using h')
    rw [Option.map_eq_some_iff] at this
    obtain ⟨⟨l, b⟩, h1, h2⟩ := this
    exact ⟨l, by rw [h1]; simp only at h2; rw [h2]⟩
  · rintro ⟨i, l, hi⟩ h
    refine h i ?_ (by simp [hi])
    rw [List.mem_range]
    exact (List.getElem?_eq_some_iff.mp hi).1

/-- Meets the hypotheses: jumps in level, and a skipped heading whose subsection is not put under its elder brother. -/
example : entries none (tree (headings [(1, true), (2, true), (2, false), (4, true), (3, true), (1, true)])) =
    [(none, 0), (some 0, 1), (some 0, 3), (some 0, 4), (none, 5)] := by decide

end Tinymist.Outline
