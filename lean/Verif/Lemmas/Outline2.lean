import Verif.Lemmas.Sections

/-! What of a stack the outline will show. -/

namespace Tinymist.Sections

theorem symbols_append (a b : List Tree) : symbols (a ++ b) = symbols a ++ symbols b := by
  induction a with
  | nil => simp [symbols]
  | cons t a ih => simp [symbols, ih]

/-- What is seen of the entries above the bottom, lowest first: an entry that is no symbol hides itself and all above it. -/
def seen : List Frame → List Info
  | [] => []
  | f :: up => if isSymbol f.1.kind then f.1 :: (preorder (symbols f.2) ++ seen up) else []

def visible (s : Stack) : List Info :=
  match (s.1 :: s.2).reverse with
  | [] => []
  | b :: up => preorder (symbols b.2) ++ seen up

theorem seen_attach (up : List Frame) (p top : Frame) : seen (up ++ [attach p top]) = seen (up ++ [p, top]) := by
  induction up with
  | nil =>
    by_cases h : isSymbol top.1.kind = true <;>
      simp [seen, attach, symbols_append, preorder_append, symbols, symbol, preorder, preorder1, h]
  | cons f up ih => simp only [List.cons_append, seen, ih]

theorem visible_attach (p top : Frame) (rest : List Frame) : visible (attach p top, rest) = visible (top, p :: rest) := by
  simp only [visible, List.reverse_cons]
  cases h : rest.reverse with
  | nil =>
    by_cases h : isSymbol top.1.kind = true <;>
      simp [seen, attach, symbols_append, preorder_append, symbols, symbol, preorder, preorder1, h]
  | cons b up =>
    simp only [List.cons_append, List.append_assoc]
    rw [seen_attach]
    rfl

theorem visible_finishTo (n : Nat) (top : Frame) (rest : List Frame) : visible (finishTo n top rest) = visible (top, rest) := by
  induction rest generalizing top with
  | nil => rfl
  | cons p rest ih =>
    rw [finishTo]
    split
    · rfl
    · rw [ih, visible_attach]

theorem visible_breakTo (l : Nat) (top : Frame) (rest : List Frame) : visible (breakTo l top rest) = visible (top, rest) := by
  induction rest generalizing top with
  | nil => rfl
  | cons p rest ih =>
    rw [breakTo]
    split
    · rfl
    · rw [ih, visible_attach]

theorem seen_mono (a b : List Frame) : ∀ i ∈ seen a, i ∈ seen (a ++ b) := by
  induction a with
  | nil => intro i hi; cases hi
  | cons f a ih =>
    intro i hi
    rw [List.cons_append]
    rw [seen] at hi ⊢
    split at hi
    · rename_i h
      rw [if_pos h]
      simp only [List.mem_cons, List.mem_append] at hi ⊢
      rcases hi with hi | hi | hi
      · exact .inl hi
      · exact .inr (.inl hi)
      · exact .inr (.inr (ih i hi))
    · cases hi

theorem visible_push (j : Info) (s : Stack) : ∀ i ∈ visible s, i ∈ visible (push j s) := by
  intro i hi
  simp only [visible, push] at hi ⊢
  rw [List.reverse_cons]
  cases h : (s.1 :: s.2).reverse with
  | nil => simp at h
  | cons b up =>
    rw [h] at hi
    simp only [List.cons_append, List.mem_append] at hi ⊢
    exact hi.imp id (seen_mono _ _ i)

theorem visible_open (k : Kind) (s : Stack) : visible (open_ k s) = visible s := by
  unfold open_; split
  · exact visible_breakTo _ _ _
  · rfl

theorem visible_close (k : Kind) (n : Nat) (s : Stack) : visible (close k n s) = visible s := by
  unfold close; split <;> exact visible_finishTo _ _ _

mutual
theorem visible_check : ∀ (n : Node) (s : Stack), ∀ i ∈ visible s, i ∈ visible (check n s)
  | .item j children, s => by
    intro i hi
    rw [check, visible_close]
    refine visible_checks children _ i (visible_push _ _ i ?_)
    rw [visible_open]; exact hi
  | .comment _ _, s => by rw [check]; exact visible_push _ s

theorem visible_checks : ∀ (ns : List Node) (s : Stack), ∀ i ∈ visible s, i ∈ visible (checks ns s)
  | [], s => by rw [checks]; exact fun _ h => h
  | n :: ns, s => by
    intro i hi
    rw [checks]
    exact visible_checks ns _ i (visible_check n s i hi)
end

/-- The entries of a stack above `base`: headings, and above them comments and symbols. -/
def Shape (base : List Info) (s : Stack) : Prop :=
  ∃ a hs, (s.1 :: s.2).map (·.1) = a ++ hs ++ base ∧ (∀ i ∈ a, i.kind = .symbol ∨ i.kind = .comment) ∧
    ∀ i ∈ hs, ∃ l, i.kind = .heading l

theorem attach_infos (p top : Frame) (rest : List Frame) :
    (attach p top :: rest).map (·.1) = ((top :: p :: rest).map (·.1)).tail := by
  simp [attach]

theorem finishTo_infos (n : Nat) (top : Frame) (rest : List Frame) :
    ((finishTo n top rest).1 :: (finishTo n top rest).2).map (·.1) =
      ((top :: rest).map (·.1)).drop (rest.length + 1 - max n 1) := by
  induction rest generalizing top with
  | nil => rw [show [].length + 1 - max n 1 = 0 by simp; omega]; rfl
  | cons p rest ih =>
    rw [finishTo]
    split
    · rw [show (p :: rest).length + 1 - max n 1 = 0 by simp; omega]; rfl
    · rename_i hn
      rw [ih, attach_infos, List.length_cons,
        show rest.length + 1 + 1 - max n 1 = (rest.length + 1 - max n 1) + 1 by omega]
      simp

theorem finishTo_shape {base : List Info} {n : Nat} {s : Stack} (hn : base.length ≤ n) (h : Shape base s) :
    Shape base (finishTo n s.1 s.2) := by
  obtain ⟨a, hs, h1, h2, h3⟩ := h
  have hl : s.2.length + 1 = (a ++ hs ++ base).length := by rw [← h1]; simp
  simp only [List.length_append] at hl
  generalize hk : s.2.length + 1 - max n 1 = k
  refine ⟨a.drop k, hs.drop (k - a.length), ?_, fun i hi => h2 i (List.drop_subset _ _ hi), fun i hi =>
    h3 i (List.drop_subset _ _ hi)⟩
  rw [finishTo_infos, h1, hk, List.drop_append, List.drop_append, List.length_append,
    show k - (a.length + hs.length) = 0 by omega, List.drop_zero]

/-- A heading makes way down to a heading or to the base. -/
theorem breakTo_shape {base : List Info} (hb : ∃ i r, base = i :: r ∧ i.kind = .block) (l : Nat) (top : Frame)
    (rest : List Frame) (h : Shape base (top, rest)) :
    ∃ hs, ((breakTo l top rest).1 :: (breakTo l top rest).2).map (·.1) = hs ++ base ∧ ∀ i ∈ hs, ∃ l, i.kind = .heading l := by
  obtain ⟨bi, br, rfl, hbk⟩ := hb
  induction rest generalizing top with
  | nil =>
    obtain ⟨a, hs, h1, h2, h3⟩ := h
    have hl : ([top.1] : List Info).length = (a ++ hs ++ bi :: br).length := by rw [← h1]; simp
    simp only [List.length_append, List.length_cons, List.length_nil] at hl
    have ha : a = [] := List.length_eq_zero_iff.mp (by omega)
    refine ⟨hs, ?_, h3⟩
    rw [breakTo, h1, ha, List.nil_append]
  | cons p rest ih =>
    rw [breakTo]
    obtain ⟨a, hs, h1, h2, h3⟩ := h
    split
    · rename_i hst
      cases a with
      | nil => exact ⟨hs, by rw [h1, List.nil_append], h3⟩
      | cons x a =>
        have : top.1 = x := by simpa using (List.cons.inj h1).1
        rcases h2 x (List.mem_cons_self ..) with e | e <;> simp [this, e, stops] at hst
    · rename_i hst
      apply ih
      cases a with
      | cons x a =>
        refine ⟨a, hs, ?_, fun i hi => h2 i (List.mem_cons_of_mem _ hi), h3⟩
        rw [attach_infos, h1]; rfl
      | nil =>
        cases hs with
        | cons x hs =>
          refine ⟨[], hs, ?_, by simp, fun i hi => h3 i (List.mem_cons_of_mem _ hi)⟩
          rw [attach_infos, h1]; rfl
        | nil =>
          have : top.1 = bi := by simpa using (List.cons.inj h1).1
          simp [this, hbk, stops] at hst

theorem open_shape {base : List Info} (hb : ∃ i r, base = i :: r ∧ i.kind = .block) (k : Kind) {s : Stack} (h : Shape base s) :
    Shape base (open_ k s) := by
  unfold open_; split
  · rename_i l
    obtain ⟨hs, h1, h2⟩ := breakTo_shape hb l s.1 s.2 h
    exact ⟨[], hs, by rw [h1]; rfl, by simp, h2⟩
  · exact h

theorem shape_height {base : List Info} {s : Stack} (h : Shape base s) : base.length ≤ s.height := by
  obtain ⟨a, hs, h1, _⟩ := h
  have hl : s.2.length + 1 = (a ++ hs ++ base).length := by rw [← h1]; simp
  simp only [List.length_append] at hl
  simp only [Stack.height]
  omega

mutual
theorem check_shape : ∀ (n : Node) (base : List Info) (s : Stack),
    (∃ i r, base = i :: r ∧ i.kind = .block) → Shape base s → Shape base (check n s)
  | .comment b e, base, s, hb, h => by
    obtain ⟨a, hs, h1, h2, h3⟩ := h
    rw [check]
    refine ⟨commentInfo b e :: a, hs, by simpa [push] using h1, ?_, h3⟩
    intro i hi
    rcases List.mem_cons.mp hi with rfl | hi
    · exact .inr rfl
    · exact h2 i hi
  | .item j children, base, s, hb, h => by
    rw [check]
    have hg := shape_height h
    have plain : ∀ s : Stack, Shape base s → (j.kind = .symbol ∨ j.kind = .comment) → Shape base (push j s) := by
      rintro s ⟨a, hs, h1, h2, h3⟩ hj
      refine ⟨j :: a, hs, by simpa [push] using h1, ?_, h3⟩
      intro i hi
      rcases List.mem_cons.mp hi with rfl | hi
      · exact hj
      · exact h2 i hi
    cases hk : j.kind with
    | heading l =>
      simp only [close, open_]
      obtain ⟨hs, h1, h2⟩ := breakTo_shape hb l s.1 s.2 h
      have hp : Shape base (push j (breakTo l s.1 s.2)) := by
        refine ⟨[], j :: hs, by simpa [push] using h1, by simp, fun i hi => ?_⟩
        rcases List.mem_cons.mp hi with rfl | hi
        · exact ⟨l, hk⟩
        · exact h2 i hi
      exact finishTo_shape (shape_height hp) (checks_shape children base _ hb hp)
    | symbol =>
      simp only [close, open_]
      refine finishTo_shape ?_ (checks_shape children base _ hb (plain s h (.inl hk)))
      simpa [push, Stack.height] using hg
    | comment =>
      simp only [close, open_]
      refine finishTo_shape ?_ (checks_shape children base _ hb (plain s h (.inr hk)))
      simpa [push, Stack.height] using hg
    | block =>
      simp only [close, open_]
      obtain ⟨a, hs, h1, h2, h3⟩ := h
      obtain ⟨a', hs', e1, _, _⟩ := checks_shape children (j :: (s.1 :: s.2).map (·.1)) (push j s) ⟨j, _, rfl, hk⟩
        ⟨[], [], by simp [push], by simp, by simp⟩
      refine ⟨a, hs, ?_, h2, h3⟩
      rw [finishTo_infos, ← h1, e1]
      have hl : (checks children (push j s)).2.length + 1 = (a' ++ hs' ++ j :: (s.1 :: s.2).map (·.1)).length := by
        rw [← e1]; simp
      rw [show (push j s).height - 1 = s.2.length + 1 by simp [push, Stack.height], hl]
      simp only [List.length_append, List.length_cons, List.length_map]
      rw [show a'.length + hs'.length + (s.2.length + 1 + 1) - max (s.2.length + 1) 1 = (a' ++ hs' ++ [j]).length by
        simp; omega,
        show a' ++ hs' ++ j :: (s.1 :: s.2).map (·.1) = (a' ++ hs' ++ [j]) ++ (s.1 :: s.2).map (·.1) by simp,
        List.drop_left]

theorem checks_shape : ∀ (ns : List Node) (base : List Info) (s : Stack),
    (∃ i r, base = i :: r ∧ i.kind = .block) → Shape base s → Shape base (checks ns s)
  | [], base, s, hb, h => by rw [checks]; exact h
  | n :: ns, base, s, hb, h => by
    rw [checks]
    exact checks_shape ns base _ hb (check_shape n base s hb h)
end

theorem seen_headings {up : List Frame} (h : ∀ f ∈ up, ∃ l, f.1.kind = .heading l) {f : Frame} (hf : f ∈ up) : f.1 ∈ seen up := by
  induction up with
  | nil => cases hf
  | cons g up ih =>
    obtain ⟨l, hl⟩ := h g (List.mem_cons_self ..)
    rw [seen, if_pos (by rw [hl]; rfl)]
    rcases List.mem_cons.mp hf with rfl | hf
    · exact List.mem_cons_self ..
    · exact List.mem_cons_of_mem _ (List.mem_append_right _ (ih (fun x hx => h x (List.mem_cons_of_mem _ hx)) hf))

/-- A heading met at the top of the document is seen from then on. -/
theorem heading_seen {s : Stack} (h : Shape [bottom.1] s) {i : Info} {l : Nat} (hk : i.kind = .heading l) (children : List Node) :
    i ∈ visible (check (.item i children) s) := by
  rw [check, visible_close]
  apply visible_checks
  rw [hk]
  simp only [open_]
  obtain ⟨hs, h1, h2⟩ := breakTo_shape ⟨bottom.1, [], rfl, rfl⟩ l s.1 s.2 h
  simp only [visible, push]
  rw [List.reverse_cons]
  have hr := congrArg List.reverse h1
  rw [← List.map_reverse, List.reverse_append] at hr
  cases hrev : ((breakTo l s.1 s.2).1 :: (breakTo l s.1 s.2).2).reverse with
  | nil => simp at hrev
  | cons b up =>
    rw [hrev] at hr
    simp only [List.map_cons, List.reverse_cons, List.reverse_nil, List.nil_append, List.cons_append] at hr
    have hup := (List.cons.inj hr).2
    simp only [List.cons_append, List.mem_append]
    right
    refine seen_headings (f := (i, [])) (fun f hf => ?_) (by simp)
    rcases List.mem_append.mp hf with hf | hf
    · refine h2 f.1 (List.mem_reverse.mp ?_)
      rw [← hup]; exact List.mem_map_of_mem hf
    · have : f = (i, []) := by simpa using hf
      exact ⟨l, by rw [this]; exact hk⟩

end Tinymist.Sections
