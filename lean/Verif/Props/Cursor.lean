import Verif.Spec.Click
import Verif.Lemmas.Util

/-!
# From a cursor to the page (C130)
-/

namespace Tinymist.Click

open Spec

variable {S : Type} [DecidableEq S]

/-! ## The exact glyph -/

theorem findGlyphs_first (w : Spans S) (span : S) (o : Pt) (gs : List (Glyph S)) : ∀ (pos : Pt) (near : Near),
    (findGlyphs w span pos near gs).1.map (fun p => (⟨o.x + p.x, o.y + p.y⟩ : Pt)) =
      ((glyphPoints (o.x + pos.x) (o.y + pos.y) gs).find? (fun p => p.2 = span)).map (·.1) := by
  induction gs with
  | nil => intro pos near; rfl
  | cons g gs ih =>
    intro pos near
    rw [findGlyphs, glyphPoints]
    by_cases h : g.span = span
    · rw [if_pos h, List.find?_cons_of_pos (by simp [h])]
      rfl
    · rw [if_neg h, List.find?_cons_of_neg (by simp [h])]
      simp only
      rw [ih, show o.x + (pos.x + g.width) = o.x + pos.x + g.width by omega]

theorem findItem_first (w : Spans S) (span : S) (i : Item S) : ∀ (o : Pt) (near : Near),
    (findItem w span near i).1.map (fun p => (⟨o.x + p.x, o.y + p.y⟩ : Pt)) = ((pointsOf o i).find? (fun p => p.2 = span)).map (·.1) := by
  refine Item.rec
    (motive_1 := fun i => ∀ (o : Pt) (near : Near), (findItem w span near i).1.map (fun p => (⟨o.x + p.x, o.y + p.y⟩ : Pt)) =
      ((pointsOf o i).find? (fun p => p.2 = span)).map (·.1))
    (motive_2 := fun is => ∀ (o : Pt) (near : Near), (findItems w span near is).1.map (fun p => (⟨o.x + p.x, o.y + p.y⟩ : Pt)) =
      ((points o is).find? (fun p => p.2 = span)).map (·.1))
    ?_ ?_ ?_ ?_ ?_ ?_ ?_ ?_ i
  · intro pos items ih o near
    rw [findItem, pointsOf, ← ih ⟨o.x + pos.x, o.y + pos.y⟩ near]
    rcases findItems w span near items with ⟨_ | p, n⟩
    · rfl
    · simp only [Option.map_some, Option.some.injEq, Pt.mk.injEq]
      omega
  · intro pos size gs o near
    rw [findItem, pointsOf]
    exact findGlyphs_first w span o gs pos near
  · intro _ _ _ o near
    rw [findItem, pointsOf]
    rfl
  · intro _ _ _ o near
    rw [findItem, pointsOf]
    rfl
  · intro _ _ o near
    rw [findItem, pointsOf]
    rfl
  · intro o near
    rw [findItem, pointsOf]
    rfl
  · intro o near
    rw [findItems, points]
    rfl
  · intro i rest ih1 ih2 o near
    rw [findItems, points, List.find?_append]
    have h1 := ih1 o near
    revert h1
    rcases findItem w span near i with ⟨_ | p, n⟩
    · intro h1
      simp only [Option.map_none] at h1
      rw [Option.map_eq_none_iff.mp h1.symm, Option.none_or]
      exact ih2 o n
    · intro h1
      simp only [Option.map_some] at h1
      obtain ⟨q, h2, h3⟩ := Option.map_eq_some_iff.mp h1.symm
      simp only [h2, Option.some_or, Option.map_some, h3]

theorem findItems_first (w : Spans S) (span : S) (frame : List (Item S)) (near : Near) :
    (findItems w span near frame).1 = ((points ⟨0, 0⟩ frame).find? (fun p => p.2 = span)).map (·.1) := by
  have := findItem_first w span (.group ⟨0, 0⟩ frame) ⟨0, 0⟩ near
  rw [findItem, pointsOf] at this
  simp only [Int.add_zero, Int.zero_add] at this
  rw [← this]
  rcases findItems w span near frame with ⟨_ | p, n⟩
  · rfl
  · rfl

/-- The exact position on a page, if there is one. -/
def exactOn (span : S) (frame : List (Item S)) : Option Pt := ((points ⟨0, 0⟩ frame).find? (fun p => p.2 = span)).map (·.1)

theorem exactOn_iff (span : S) (frame : List (Item S)) (p : Pt) :
    exactOn span frame = some p ↔ FirstAt (fun q => q.2 = span) (points ⟨0, 0⟩ frame) (p, span) := by
  unfold exactOn FirstAt
  rw [Option.map_eq_some_iff]
  constructor
  · rintro ⟨⟨q, s⟩, h, rfl⟩
    obtain ⟨h1, pre, post, h2, h3⟩ := List.find?_eq_some_iff_append.mp h
    simp only [decide_eq_true_eq] at h1
    refine ⟨pre, post, by rw [h2, h1], rfl, ?_⟩
    intro x hx he
    have := h3 x hx
    simp [he] at this
  · rintro ⟨pre, post, h1, -, h3⟩
    refine ⟨(p, span), List.find?_eq_some_iff_append.mpr ⟨by simp, pre, post, h1, ?_⟩, rfl⟩
    intro x hx
    simpa using h3 x hx

theorem findPages_positions (w : Spans S) (span : S) (ps : List (List (Item S))) : ∀ (idx : Nat) (st : Pages),
    (findPages w span idx st ps).positions =
      st.positions ++ (ps.zipIdx (idx + 1)).filterMap (fun (f, n) => (exactOn span f).map (fun p => (n, p))) := by
  induction ps with
  | nil => intro idx st; simp [findPages]
  | cons f ps ih =>
    intro idx st
    rw [findPages]
    simp only
    rw [ih, List.zipIdx_cons, List.filterMap_cons, findItems_first]
    simp only
    rw [show ((points ⟨0, 0⟩ f).find? (fun p => p.2 = span)).map (·.1) = exactOn span f from rfl]
    cases exactOn span f with
    | none => rfl
    | some p => simp

/-- C130: when the leaf before the cursor is a text, and some glyph on some page comes from it, the answer is the list of
the pages that have such a glyph, in order and counted from one, each with the point where the first such glyph of the
page is. -/
theorem exact_positions (w : Spans S) (span : S) (pages : List (List (Item S)))
    (h : ∃ frame ∈ pages, ∃ p, (p, span) ∈ points ⟨0, 0⟩ frame) :
    ∃ exact : List (Item S) → Option Pt,
      (∀ frame p, exact frame = some p ↔ FirstAt (fun q => q.2 = span) (points ⟨0, 0⟩ frame) (p, span)) ∧
      jumpFromCursor w (some (span, true)) (some pages) =
        (pages.zipIdx 1).filterMap (fun (f, n) => (exact f).map (fun p => (n, p))) := by
  refine ⟨exactOn span, exactOn_iff span, ?_⟩
  rw [jumpFromCursor]
  simp only
  rw [findPages_positions]
  simp only [List.nil_append, Nat.zero_add]
  rw [if_neg]
  rintro ⟨h1, -⟩
  obtain ⟨frame, hf, p, hp⟩ := h
  obtain ⟨i, hi⟩ := List.mem_iff_getElem?.mp hf
  have hz : (frame, 1 + i) ∈ pages.zipIdx 1 := by
    rw [List.mem_zipIdx_iff_le_and_getElem?_sub]
    exact ⟨by omega, by rw [show 1 + i - 1 = i by omega]; exact hi⟩
  have := (List.filterMap_eq_nil_iff.mp h1) _ hz
  simp only [Option.map_eq_none_iff, exactOn, List.find?_eq_none] at this
  exact this (p, span) hp (by simp)

/-- C130: a cursor behind anything but a text leads to no page. -/
theorem no_text_no_position (w : Spans S) (leaf : Option (S × Bool)) (pages : Option (List (List (Item S))))
    (h : ∀ s, leaf ≠ some (s, true)) : jumpFromCursor w leaf pages = [] := by
  match leaf, h with
  | none, _ => rfl
  | some (_, false), _ => rfl
  | some (s, true), h => exact absurd rfl (h s)

/-! ## The closest glyph -/

/-- One glyph after the other. -/
def nearest (w : Spans S) (span : S) (n : Near) (l : List (Pt × S)) : Near :=
  l.foldl (fun n q => if w.file q.2 = w.file span ∧ absDiff (w.raw q.2) (w.raw span) < n.dis then
    { dis := absDiff (w.raw q.2) (w.raw span), at_ := q.1 } else n) n

theorem findGlyphs_near (w : Spans S) (span : S) (gs : List (Glyph S)) : ∀ (pos : Pt) (near : Near),
    (∀ p ∈ glyphPoints pos.x pos.y gs, p.2 ≠ span) →
    (findGlyphs w span pos near gs).2 = nearest w span near (glyphPoints pos.x pos.y gs) := by
  induction gs with
  | nil => intro pos near _; rfl
  | cons g gs ih =>
    intro pos near h
    rw [glyphPoints] at h
    rw [findGlyphs, if_neg (h _ List.mem_cons_self), glyphPoints, nearest, List.foldl_cons]
    exact ih ⟨pos.x + g.width, pos.y⟩ _ (fun p hp => h p (List.mem_cons_of_mem _ hp))

theorem findItem_near (w : Spans S) (span : S) (i : Item S) : Still i → ∀ near : Near,
    (∀ p ∈ pointsOf ⟨0, 0⟩ i, p.2 ≠ span) → (findItem w span near i).2 = nearest w span near (pointsOf ⟨0, 0⟩ i) := by
  refine Item.rec
    (motive_1 := fun i => Still i → ∀ near : Near,
      (∀ p ∈ pointsOf ⟨0, 0⟩ i, p.2 ≠ span) → (findItem w span near i).2 = nearest w span near (pointsOf ⟨0, 0⟩ i))
    (motive_2 := fun is => StillAll is → ∀ near : Near,
      (∀ p ∈ points ⟨0, 0⟩ is, p.2 ≠ span) → (findItems w span near is).2 = nearest w span near (points ⟨0, 0⟩ is))
    ?_ ?_ ?_ ?_ ?_ ?_ ?_ ?_ i
  · intro pos items ih hs near h
    rw [Still] at hs
    obtain ⟨rfl, hs⟩ := hs
    rw [pointsOf] at h ⊢
    simp only [Int.add_zero] at h ⊢
    rw [findItem, ← ih hs near h]
    rcases findItems w span near items with ⟨_ | p, n⟩ <;> rfl
  · intro pos size gs _ near h
    rw [pointsOf] at h ⊢
    simp only [Int.zero_add] at h ⊢
    rw [findItem]
    exact findGlyphs_near w span gs pos near h
  · intro _ _ _ _ near _
    rw [findItem, pointsOf]
    rfl
  · intro _ _ _ _ near _
    rw [findItem, pointsOf]
    rfl
  · intro _ _ _ near _
    rw [findItem, pointsOf]
    rfl
  · intro _ near _
    rw [findItem, pointsOf]
    rfl
  · intro _ near _
    rw [findItems, points]
    rfl
  · intro i rest ih1 ih2 hs near h
    rw [StillAll] at hs
    rw [points] at h ⊢
    have h1 := ih1 hs.1 near (fun p hp => h p (List.mem_append_left _ hp))
    have h0 := findItem_first w span i ⟨0, 0⟩ near
    have hn : (pointsOf ⟨0, 0⟩ i).find? (fun p => p.2 = span) = none := by
      rw [List.find?_eq_none]
      intro p hp
      simpa using h p (List.mem_append_left _ hp)
    rw [hn, Option.map_none, Option.map_eq_none_iff] at h0
    rw [findItems]
    revert h0 h1
    rcases findItem w span near i with ⟨r, n⟩
    rintro h1 h0
    simp only at h0 h1
    subst h0
    simp only
    rw [ih2 hs.2 n (fun p hp => h p (List.mem_append_right _ hp)), h1, nearest, nearest, nearest, List.foldl_append]

theorem findItems_near (w : Spans S) (span : S) (frame : List (Item S)) (hs : StillAll frame) (near : Near)
    (h : ∀ p ∈ points ⟨0, 0⟩ frame, p.2 ≠ span) : (findItems w span near frame).2 = nearest w span near (points ⟨0, 0⟩ frame) := by
  have := findItem_near w span (.group ⟨0, 0⟩ frame) (by rw [Still]; exact ⟨rfl, hs⟩) near (by rw [pointsOf]; simpa using h)
  rw [findItem, pointsOf] at this
  simp only [Int.add_zero] at this
  rw [← this]
  rcases findItems w span near frame with ⟨_ | p, n⟩ <;> rfl

/-- The closest glyph with its page. -/
def closest (w : Spans S) (span : S) (st : Nat × Near) (l : List (Nat × Pt × S)) : Nat × Near :=
  l.foldl (fun st q => if w.file q.2.2 = w.file span ∧ absDiff (w.raw q.2.2) (w.raw span) < st.2.dis then
    (q.1, { dis := absDiff (w.raw q.2.2) (w.raw span), at_ := q.2.1 }) else st) st

theorem nearest_le (w : Spans S) (span : S) (l : List (Pt × S)) : ∀ n, (nearest w span n l).dis ≤ n.dis ∧
    ((nearest w span n l).dis = n.dis → nearest w span n l = n) := by
  induction l with
  | nil => intro n; exact ⟨Nat.le_refl _, fun _ => rfl⟩
  | cons q l ih =>
    intro n
    rw [nearest, List.foldl_cons]
    by_cases hc : w.file q.2 = w.file span ∧ absDiff (w.raw q.2) (w.raw span) < n.dis
    · rw [if_pos hc]
      have := (ih { dis := absDiff (w.raw q.2) (w.raw span), at_ := q.1 }).1
      simp only [nearest] at this
      refine ⟨by omega, fun h => ?_⟩
      omega
    · rw [if_neg hc]
      exact ih n

theorem closest_page (w : Spans S) (span : S) (l : List (Pt × S)) (k : Nat) : ∀ (j : Nat) (n : Near),
    closest w span (j, n) (l.map (fun p => (k, p.1, p.2))) =
      (if (nearest w span n l).dis ≠ n.dis then k else j, nearest w span n l) := by
  induction l with
  | nil => intro j n; simp [closest, nearest]
  | cons q l ih =>
    intro j n
    rw [List.map_cons, closest, List.foldl_cons, nearest, List.foldl_cons]
    simp only
    by_cases hc : w.file q.2 = w.file span ∧ absDiff (w.raw q.2) (w.raw span) < n.dis
    · rw [if_pos hc, if_pos hc]
      have := ih k { dis := absDiff (w.raw q.2) (w.raw span), at_ := q.1 }
      rw [closest] at this
      rw [this, ite_self]
      have hle := (nearest_le w span l { dis := absDiff (w.raw q.2) (w.raw span), at_ := q.1 }).1
      simp only at hle
      have : (nearest w span { dis := absDiff (w.raw q.2) (w.raw span), at_ := q.1 } l).dis ≠ n.dis := by omega
      rw [nearest] at this ⊢
      rw [if_pos this]
    · rw [if_neg hc, if_neg hc]
      exact ih j n

theorem findPages_closest (w : Spans S) (span : S) (ps : List (List (Item S))) (hs : ∀ f ∈ ps, StillAll f)
    (h : ∀ f ∈ ps, ∀ p ∈ points ⟨0, 0⟩ f, p.2 ≠ span) : ∀ (idx : Nat) (st : Pages) (j : Nat), st.page + 1 = j ∨ st.near.dis = 2 ^ 64 - 1 →
    let r := findPages w span idx st ps
    let c := closest w span (j, st.near) ((ps.zipIdx (idx + 1)).flatMap (fun (f, n) => (points ⟨0, 0⟩ f).map (fun p => (n, p.1, p.2))))
    r.near = c.2 ∧ (r.page + 1 = c.1 ∨ r.near.dis = 2 ^ 64 - 1) := by
  induction ps with
  | nil =>
    intro idx st j hj
    exact ⟨rfl, hj⟩
  | cons f ps ih =>
    intro idx st j hj
    simp only
    rw [findPages, List.zipIdx_cons, List.flatMap_cons]
    have e : ∀ a b st, closest w span st (a ++ b) = closest w span (closest w span st a) b := by
      intro a b st
      simp [closest, List.foldl_append]
    rw [e]
    simp only
    rw [closest_page]
    have hn := findItems_near w span f (hs f List.mem_cons_self) st.near (h f List.mem_cons_self)
    rw [hn]
    refine ih (fun x hx => hs x (List.mem_cons_of_mem _ hx)) (fun x hx => h x (List.mem_cons_of_mem _ hx)) (idx + 1) _ _ ?_
    simp only
    by_cases hd : (nearest w span st.near (points ⟨0, 0⟩ f)).dis ≠ st.near.dis
    · rw [if_pos hd, if_pos hd]
      exact .inl rfl
    · rw [if_neg hd, if_neg hd]
      rcases hj with hj | hj
      · exact .inl hj
      · exact .inr (by omega)

theorem closest_spec (w : Spans S) (span : S) (st : Nat × Near) (l : List (Nat × Pt × S)) :
    (closest w span st l = st ∧ ∀ q ∈ l, w.file q.2.2 = w.file span → st.2.dis ≤ apart w q.2.2 span) ∨
    (∃ pre n p s post, l = pre ++ (n, p, s) :: post ∧ w.file s = w.file span ∧
      closest w span st l = (n, ⟨apart w s span, p⟩) ∧ apart w s span < st.2.dis ∧
      (∀ q ∈ pre, w.file q.2.2 = w.file span → apart w s span < apart w q.2.2 span) ∧
      (∀ q ∈ post, w.file q.2.2 = w.file span → apart w s span ≤ apart w q.2.2 span)) := by
  induction l using Util.reverseInd with
  | nil => exact .inl ⟨rfl, by simp⟩
  | append_singleton l q ih =>
    have e : closest w span st (l ++ [q]) =
        if w.file q.2.2 = w.file span ∧ absDiff (w.raw q.2.2) (w.raw span) < (closest w span st l).2.dis then
          (q.1, { dis := absDiff (w.raw q.2.2) (w.raw span), at_ := q.2.1 }) else closest w span st l := by
      rw [closest, List.foldl_append]
      rfl
    have ea : absDiff (w.raw q.2.2) (w.raw span) = apart w q.2.2 span := rfl
    rw [ea] at e
    rcases ih with ⟨h1, h2⟩ | ⟨pre, n, p, s, post, h1, h2, h3, h4, h5, h6⟩
    · rw [h1] at e
      by_cases hc : w.file q.2.2 = w.file span ∧ apart w q.2.2 span < st.2.dis
      · rw [if_pos hc] at e
        refine .inr ⟨l, q.1, q.2.1, q.2.2, [], rfl, hc.1, e, hc.2, ?_, by simp⟩
        intro x hx hf
        have := h2 x hx hf
        omega
      · rw [if_neg hc] at e
        refine .inl ⟨e, ?_⟩
        intro x hx hf
        rcases List.mem_append.mp hx with hx | hx
        · exact h2 x hx hf
        · rw [List.mem_singleton.mp hx] at hf ⊢
          exact Nat.not_lt.mp fun hlt => hc ⟨hf, hlt⟩
    · rw [h3] at e
      simp only at e
      by_cases hc : w.file q.2.2 = w.file span ∧ apart w q.2.2 span < apart w s span
      · rw [if_pos hc] at e
        refine .inr ⟨l, q.1, q.2.1, q.2.2, [], rfl, hc.1, e, by omega, ?_, by simp⟩
        intro x hx hf
        rw [h1] at hx
        rcases List.mem_append.mp hx with hx | hx
        · have := h5 x hx hf
          omega
        · rcases List.mem_cons.mp hx with rfl | hx
          · exact hc.2
          · have := h6 x hx hf
            omega
      · rw [if_neg hc] at e
        refine .inr ⟨pre, n, p, s, post ++ [q], by rw [h1]; simp, h2, e, h4, h5, ?_⟩
        intro x hx hf
        rcases List.mem_append.mp hx with hx | hx
        · exact h6 x hx hf
        · rw [List.mem_singleton.mp hx] at hf ⊢
          exact Nat.not_lt.mp fun hlt => hc ⟨hf, hlt⟩

/-- C130: when no glyph comes from the leaf before the cursor, the answer is the page and the point of the first of the
glyphs that are closest to it in the file, and nothing when no glyph comes from the file.

Partial: no group of the pages is moved. The glyphs of a moved group are given where they would be if it were not
(`moved_group_lost`). -/
theorem closest_position_partial (w : Spans S) (span : S) (pages : List (List (Item S))) (hs : ∀ f ∈ pages, StillAll f)
    (hraw : ∀ s, 0 < w.raw s ∧ w.raw s < 2 ^ 64) (hno : ∀ f ∈ pages, ∀ p ∈ points ⟨0, 0⟩ f, p.2 ≠ span) :
    (jumpFromCursor w (some (span, true)) (some pages) = [] ∧ ∀ q ∈ everywhere pages, w.file q.2.2 ≠ w.file span) ∨
    ∃ n p, jumpFromCursor w (some (span, true)) (some pages) = [(n, p)] ∧ Closest w span (everywhere pages) n p := by
  have hpos : (findPages w span 0 { positions := [], page := 0, near := { dis := 2 ^ 64 - 1, at_ := ⟨0, 0⟩ } } pages).positions = [] := by
    rw [findPages_positions, List.nil_append, List.filterMap_eq_nil_iff]
    rintro ⟨f, n⟩ hf
    have hm : f ∈ pages := by
      obtain ⟨-, h⟩ := List.mem_zipIdx_iff_le_and_getElem?_sub.mp hf
      exact List.mem_of_getElem? h
    simp only [Option.map_eq_none_iff, exactOn, List.find?_eq_none]
    intro p hp
    simpa using hno f hm p hp
  have hc := findPages_closest w span pages hs hno 0 { positions := [], page := 0, near := { dis := 2 ^ 64 - 1, at_ := ⟨0, 0⟩ } } 1 (.inl rfl)
  simp only [Nat.zero_add] at hc
  rw [show ((pages.zipIdx 1).flatMap (fun (f, n) => (points ⟨0, 0⟩ f).map (fun p => (n, p.1, p.2)))) = everywhere pages from rfl] at hc
  obtain ⟨h1, h2⟩ := hc
  rw [jumpFromCursor]
  rcases closest_spec w span (1, { dis := 2 ^ 64 - 1, at_ := ⟨0, 0⟩ }) (everywhere pages) with ⟨h3, h4⟩ | ⟨pre, n, p, s, post, h3, h4, h5, h6, h7, h8⟩
  · refine .inl ⟨?_, ?_⟩
    · rw [h3] at h1
      rw [if_neg (by rw [h1]; simp), hpos]
    · intro q hq hf
      have := h4 q hq hf
      have ha := hraw q.2.2
      have hb := hraw span
      unfold apart at this
      simp only at this
      omega
  · refine .inr ⟨n, p, ?_, pre, s, post, h3, h4, h7, h8⟩
    rw [h5] at h1 h2
    simp only at h2 h6
    have hd : (findPages w span 0 { positions := [], page := 0, near := { dis := 2 ^ 64 - 1, at_ := ⟨0, 0⟩ } } pages).near.dis ≠ 2 ^ 64 - 1 := by
      rw [h1]
      simp only
      omega
    rw [if_pos ⟨hpos, hd⟩]
    rcases h2 with h2 | h2
    · rw [h2, h1]
    · exact absurd h2 hd

/-- C130, what does not hold: the closest glyph of a moved group is given without the position of the group. -/
theorem moved_group_lost (w : Spans S) (span s : S) (a b : Pt) (size width : Int) (hne : s ≠ span) (hf : w.file s = w.file span)
    (hraw : absDiff (w.raw s) (w.raw span) < 2 ^ 64 - 1) :
    jumpFromCursor w (some (span, true)) (some [[.group a [.text b size [⟨width, s, 0, 1⟩]]]]) = [(1, b)] ∧
    points ⟨0, 0⟩ [Item.group a [.text b size [⟨width, s, 0, 1⟩]]] = [(⟨a.x + b.x, a.y + b.y⟩, s)] := by
  constructor
  · have h1 : findItems w span { dis := 2 ^ 64 - 1, at_ := ⟨0, 0⟩ } [Item.group a [.text b size [⟨width, s, 0, 1⟩]]] =
        (none, { dis := absDiff (w.raw s) (w.raw span), at_ := b }) := by
      have hg : findGlyphs w span b { dis := 2 ^ 64 - 1, at_ := ⟨0, 0⟩ } [⟨width, s, 0, 1⟩] =
          (none, { dis := absDiff (w.raw s) (w.raw span), at_ := b }) := by
        rw [findGlyphs, if_neg hne, findGlyphs]
        simp only [hf, hraw, and_self, if_true]
      simp only [findItems, findItem, hg]
    have hd : absDiff (w.raw s) (w.raw span) ≠ 2 ^ 64 - 1 := by omega
    rw [jumpFromCursor]
    simp only [findPages, h1]
    rw [if_pos ⟨trivial, hd⟩, if_pos hd]
  · simp [points, pointsOf, glyphPoints]

/-! ## A case -/

/-- Spans with their numbers, all in one file but 9. -/
def sampleNumbers : Spans Nat where
  file s := if s = 9 then none else some 0
  isText _ := some true
  raw s := s % 1000 + 1

/-- Two pages. -/
def samplePages : List (List (Item Nat)) :=
  [[.text ⟨1, 2⟩ 10 [⟨5, 9, 0, 1⟩, ⟨5, 3, 0, 1⟩]], [.group ⟨0, 0⟩ [.text ⟨7, 8⟩ 10 [⟨5, 5, 0, 1⟩, ⟨5, 3, 0, 1⟩]], .tag]]

example : jumpFromCursor sampleNumbers (some (3, true)) (some samplePages) = [(1, ⟨6, 2⟩), (2, ⟨12, 8⟩)] ∧
    jumpFromCursor sampleNumbers (some (6, true)) (some samplePages) = [(2, ⟨7, 8⟩)] := by decide

example : (∀ f ∈ samplePages, StillAll f) ∧ (∀ s, 0 < sampleNumbers.raw s ∧ sampleNumbers.raw s < 2 ^ 64) := by
  refine ⟨?_, fun s => ?_⟩
  · intro f hf
    simp only [samplePages, List.mem_cons, List.not_mem_nil, or_false] at hf
    rcases hf with rfl | rfl <;> simp [StillAll, Still]
  · simp only [sampleNumbers]
    omega

end Tinymist.Click
