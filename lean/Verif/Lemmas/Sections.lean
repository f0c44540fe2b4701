import Verif.Spec.Sections

/-! The stack of the hierarchy worker. -/

namespace Tinymist.Sections

/-- Finish all of some entries into the last. -/
def fold (top : Frame) : List Frame → Frame
  | [] => top
  | p :: ps => fold (attach p top) ps

theorem fold_snoc (top : Frame) (ps : List Frame) (p : Frame) : fold top (ps ++ [p]) = attach p (fold top ps) := by
  induction ps generalizing top with
  | nil => rfl
  | cons q ps ih => exact ih _

theorem fold_info (top : Frame) (ps : List Frame) : ∃ f, (top :: ps).getLast? = some f ∧ f.1 = (fold top ps).1 := by
  induction ps generalizing top with
  | nil => exact ⟨top, rfl, rfl⟩
  | cons p ps ih =>
    obtain ⟨f, h1, h2⟩ := ih (attach p top)
    cases ps with
    | nil => exact ⟨p, rfl, rfl⟩
    | cons q ps =>
      refine ⟨f, ?_, h2⟩
      simpa using h1

theorem finishTo_fold (top : Frame) (ups rest : List Frame) :
    finishTo (rest.length + 1) top (ups ++ rest) = (fold top ups, rest) := by
  induction ups generalizing top with
  | nil =>
    cases rest with
    | nil => rfl
    | cons p rest =>
      rw [List.nil_append, finishTo, if_pos (by simp)]; rfl
  | cons p ups ih =>
    rw [List.cons_append, finishTo, if_neg (by simp; omega), ih]
    rfl

theorem breakTo_fold (l : Nat) (top : Frame) (ups rest : List Frame)
    (h : ∀ f ∈ (top :: ups).dropLast, stops l f.1.kind = false) :
    breakTo l top (ups ++ rest) = breakTo l (fold top ups) rest := by
  induction ups generalizing top with
  | nil => rfl
  | cons p ups ih =>
    have h0 : stops l top.1.kind = false := h top (by simp)
    rw [List.cons_append, breakTo, if_neg (by simp [h0]), ih]
    · rfl
    · intro f hf
      cases ups with
      | nil => simp at hf
      | cons q ups =>
        simp only [List.dropLast_cons₂, List.mem_cons] at hf h
        rcases hf with rfl | hf
        · exact h p (by simp)
        · exact h f (by simp [hf])

theorem breakTo_stay {l : Nat} {s : Stack} (h : stops l s.1.1.kind = true ∨ s.2 = []) : breakTo l s.1 s.2 = s := by
  obtain ⟨top, rest⟩ := s
  cases rest with
  | nil => rfl
  | cons p rest =>
    rcases h with h | h
    · exact if_pos h
    · cases h

/-- What visiting nodes does to a stack: above it there are only headings, and finishing them adds the trees. -/
def Grown (ns : List Node) (s : Stack) (t : List Tree) (s' : Stack) : Prop :=
  ∃ ups, s'.2 = ups ++ s.2 ∧ fold s'.1 ups = (s.1.1, s.1.2 ++ t) ∧
    ∀ f ∈ (s'.1 :: ups).dropLast, ∃ k, f.1.kind = .heading k ∧ ∃ n ∈ ns, n.kind = .heading k

theorem noHeading_mem {ns : List Node} (h : noHeading ns = true) {n : Node} (hn : n ∈ ns) (k : Nat) : n.kind ≠ .heading k := by
  induction ns with
  | nil => cases hn
  | cons m ns ih =>
    simp only [noHeading, Bool.and_eq_true] at h
    rcases List.mem_cons.mp hn with rfl | hn
    · intro e; rw [e] at h; simp at h
    · exact ih h.2 hn

theorem plainDoc_mem {ns : List Node} (h : plainDoc ns = true) {n : Node} (hn : n ∈ ns) : plainNode n = true := by
  induction ns with
  | nil => cases hn
  | cons m ns ih =>
    simp only [plainDoc, Bool.and_eq_true] at h
    rcases List.mem_cons.mp hn with rfl | hn
    · exact h.1
    · exact ih h.2 hn

theorem plainDoc_append (a b : List Node) : plainDoc (a ++ b) = (plainDoc a && plainDoc b) := by
  induction a with
  | nil => simp [plainDoc]
  | cons n a ih => simp [plainDoc, ih, Bool.and_assoc]

theorem checks_append (a b : List Node) (s : Stack) : checks (a ++ b) s = checks b (checks a s) := by
  induction a generalizing s with
  | nil => simp [checks]
  | cons n a ih => simp [checks, ih]

/-- The heart of it: visiting nodes that nest as `t` adds `t`. -/
theorem grown {ns : List Node} {t : List Tree} (h : Nests ns t) : plainDoc ns = true → ∀ s : Stack,
    (∀ n ∈ ns, ∀ k, n.kind = .heading k → stops k s.1.1.kind = true ∨ s.2 = []) → Grown ns s t (checks ns s) := by
  induction h with
  | nil =>
    intro _ s _
    exact ⟨[], by simp [checks], by simp [checks, fold], by simp⟩
  | other i children rest a c hk _ _ iha ihc =>
    intro hp s hs
    simp only [plainDoc, plainNode, Bool.and_eq_true, Bool.or_eq_true, decide_eq_true_eq] at hp
    obtain ⟨⟨hpc, hb⟩, hpr⟩ := hp
    have ho : open_ i.kind s = s := by
      unfold open_; split
      · rename_i l e; exact (hk l e).elim
      · rfl
    have h1 := iha hpc (push i s) fun n hn k e => by
      rcases hb with hb | hb
      · left; show stops k i.kind = true; rw [hb]; rfl
      · exact (noHeading_mem hb hn k e).elim
    obtain ⟨ups, u1, u2, _⟩ := h1
    have e : check (.item i children) s = ((s.1.1, s.1.2 ++ [.node i a]), s.2) := by
      rw [check, ho]
      unfold close
      split
      · rename_i l e; exact (hk l e).elim
      · have u1' : (checks children (push i s)).2 = (ups ++ [s.1]) ++ s.2 := by rw [u1]; simp [push]
        have : (push i s).height - 1 = s.2.length + 1 := by simp [push, Stack.height]
        rw [this, u1', finishTo_fold, fold_snoc, u2]
        simp [attach, push]
    rw [checks, e]
    obtain ⟨vs, v1, v2, v3⟩ := ihc hpr ((s.1.1, s.1.2 ++ [.node i a]), s.2) fun n hn k e =>
      hs n (List.mem_cons_of_mem _ hn) k e
    refine ⟨vs, v1, by rw [v2]; simp, fun f hf => ?_⟩
    obtain ⟨k, k1, n, hn, k2⟩ := v3 f hf
    exact ⟨k, k1, n, List.mem_cons_of_mem _ hn, k2⟩
  | heading i l children section_ rest a b c hk hin hout _ _ _ iha ihb ihc =>
    intro hp s hs
    simp only [plainDoc, plainNode, Bool.and_eq_true, Bool.or_eq_true, decide_eq_true_eq, plainDoc_append] at hp
    obtain ⟨⟨hpc, hb⟩, hps, hpr⟩ := hp
    have hnh : noHeading children = true := by
      rcases hb with hb | hb
      · rw [hk] at hb; cases hb
      · exact hb
    have ho : open_ i.kind s = s := by
      rw [hk]; exact breakTo_stay (hs _ (List.mem_cons_self ..) l hk)
    obtain ⟨ups, u1, u2, _⟩ := iha hpc (push i s) fun n hn k e => (noHeading_mem hnh hn k e).elim
    have e : check (.item i children) s = ((i, a), s.1 :: s.2) := by
      rw [check, ho, hk, close]
      have : (push i s).height = (s.1 :: s.2).length + 1 := by simp [push, Stack.height]
      rw [this, u1, show (push i s).2 = s.1 :: s.2 from rfl, finishTo_fold, u2]
      simp [push]
    obtain ⟨vs, v1, v2, v3⟩ := ihb hps ((i, a), s.1 :: s.2) fun n hn k e => by
      left; show stops k i.kind = true; rw [hk]; simpa [stops] using hin n hn k e
    have v1' : (checks section_ ((i, a), s.1 :: s.2)).2 = (vs ++ [s.1]) ++ s.2 := by rw [v1]; simp
    have v2' : fold (checks section_ ((i, a), s.1 :: s.2)).1 (vs ++ [s.1]) = (s.1.1, s.1.2 ++ [.node i (a ++ b)]) := by
      rw [fold_snoc, v2]; rfl
    have v3' : ∀ f ∈ ((checks section_ ((i, a), s.1 :: s.2)).1 :: (vs ++ [s.1])).dropLast,
        ∃ k, f.1.kind = .heading k ∧ l ≤ k ∧ ∃ n ∈ Node.item i children :: section_, n.kind = .heading k := by
      intro f hf
      rw [← List.cons_append, List.dropLast_concat] at hf
      obtain ⟨g, g1, g2⟩ := fold_info (checks section_ ((i, a), s.1 :: s.2)).1 vs
      have hsplit := List.dropLast_concat_getLast (l := (checks section_ ((i, a), s.1 :: s.2)).1 :: vs) (by simp)
      rw [← hsplit] at hf
      rcases List.mem_append.mp hf with hf | hf
      · obtain ⟨k, k1, n, hn, k2⟩ := v3 f hf
        exact ⟨k, k1, Nat.le_of_lt (hin n hn k k2), n, List.mem_cons_of_mem _ hn, k2⟩
      · have : f = g := by
          rw [List.getLast?_eq_some_getLast (by simp)] at g1
          simp only [List.mem_singleton] at hf
          rw [hf]; exact Option.some.inj g1
        subst this
        rw [v2] at g2
        exact ⟨l, by rw [g2]; exact hk, Nat.le_refl _, _, List.mem_cons_self .., hk⟩
    rw [checks, e, checks_append]
    cases rest with
    | nil =>
      cases (‹Nests [] c›)
      refine ⟨vs ++ [s.1], by rw [checks]; exact v1', by rw [checks]; exact v2', fun f hf => ?_⟩
      rw [checks] at hf
      obtain ⟨k, k1, _, n, hn, k2⟩ := v3' f hf
      exact ⟨k, k1, n, by simpa using hn, k2⟩
    | cons r rs =>
      have hr : ∃ k, r.kind = .heading k ∧ k ≤ l := by
        have := hout r rfl
        simp only [Inside, Classical.not_forall] at this
        obtain ⟨k, k1, k2⟩ := this
        exact ⟨k, k1, by omega⟩
      obtain ⟨k, hrk, hkl⟩ := hr
      have hsame : checks (r :: rs) (checks section_ ((i, a), s.1 :: s.2)) =
          checks (r :: rs) ((s.1.1, s.1.2 ++ [.node i (a ++ b)]), s.2) := by
        rw [checks, checks]
        congr 1
        cases r with
        | comment _ _ => cases hrk
        | item j cs =>
          have hrk : j.kind = .heading k := hrk
          have : open_ j.kind (checks section_ ((i, a), s.1 :: s.2)) =
              open_ j.kind ((s.1.1, s.1.2 ++ [.node i (a ++ b)]), s.2) := by
            rw [hrk]
            simp only [open_]
            rw [v1', breakTo_fold, v2']
            intro f hf
            obtain ⟨m, m1, m2, _⟩ := v3' f hf
            rw [m1]
            simp only [stops, decide_eq_false_iff_not]
            omega
          rw [check, check, this]
      rw [hsame]
      obtain ⟨ws, w1, w2, w3⟩ := ihc hpr ((s.1.1, s.1.2 ++ [.node i (a ++ b)]), s.2) fun n hn k e =>
        hs n (List.mem_cons_of_mem _ (List.mem_append_right _ hn)) k e
      refine ⟨ws, w1, by rw [w2]; simp, fun f hf => ?_⟩
      obtain ⟨k, k1, n, hn, k2⟩ := w3 f hf
      exact ⟨k, k1, n, List.mem_cons_of_mem _ (List.mem_append_right _ hn), k2⟩

theorem hierarchy_of_nests {doc : List Node} {t : List Tree} (h : Nests doc t) (hp : plainDoc doc = true) :
    hierarchy doc = t := by
  obtain ⟨ups, u1, u2, _⟩ := grown h hp (bottom, []) fun _ _ _ _ => Or.inr rfl
  have := finishTo_fold (checks doc (bottom, [])).1 ups []
  rw [hierarchy, u1]
  simp only [List.length_nil, Nat.zero_add] at this
  rw [this, u2]
  rfl

/-! ## Everything is kept -/

theorem preorder_append (a b : List Tree) : preorder (a ++ b) = preorder a ++ preorder b := by
  induction a with
  | nil => simp [preorder]
  | cons t a ih => simp [preorder, ih]

/-- The items on a stack, in order. -/
def order (s : Stack) : List Info :=
  (s.2.reverse.flatMap fun f => f.1 :: preorder f.2) ++ s.1.1 :: preorder s.1.2

theorem order_attach (p top : Frame) (rest : List Frame) : order (attach p top, rest) = order (top, p :: rest) := by
  simp [order, attach, preorder_append, preorder, preorder1]

theorem order_finishTo (n : Nat) (top : Frame) (rest : List Frame) : order (finishTo n top rest) = order (top, rest) := by
  induction rest generalizing top with
  | nil => rfl
  | cons p rest ih =>
    rw [finishTo]
    split
    · rfl
    · rw [ih, order_attach]

theorem order_breakTo (l : Nat) (top : Frame) (rest : List Frame) : order (breakTo l top rest) = order (top, rest) := by
  induction rest generalizing top with
  | nil => rfl
  | cons p rest ih =>
    rw [breakTo]
    split
    · rfl
    · rw [ih, order_attach]

theorem order_push (i : Info) (s : Stack) : order (push i s) = order s ++ [i] := by
  simp [order, push, preorder]

theorem order_open (k : Kind) (s : Stack) : order (open_ k s) = order s := by
  unfold open_; split
  · exact order_breakTo _ _ _
  · rfl

theorem order_close (k : Kind) (n : Nat) (s : Stack) : order (close k n s) = order s := by
  unfold close; split <;> exact order_finishTo _ _ _

mutual
theorem order_check : ∀ (n : Node) (s : Stack), order (check n s) = order s ++ info n
  | .item i children, s => by
    rw [check, order_close, order_checks children, order_push, order_open, info]
    simp
  | .comment _ _, s => by rw [check, order_push, info]; rfl

theorem order_checks : ∀ (ns : List Node) (s : Stack), order (checks ns s) = order s ++ infos ns
  | [], s => by simp [checks, infos]
  | n :: ns, s => by rw [checks, order_checks ns, order_check n, infos]; simp
end

theorem finishTo_one (top : Frame) (rest : List Frame) : (finishTo 1 top rest).2 = [] := by
  induction rest generalizing top with
  | nil => rfl
  | cons p rest ih => rw [finishTo, if_neg (by omega), ih]

end Tinymist.Sections
