import Verif.Spec.Click
import Verif.Model.Jump

/-!
# From a click to the source (C129)
-/

namespace Tinymist.Click

open Spec

variable {S : Type}

/-- `Box.Has`, decided. -/
def has (p : Pt) (b : Box S) : Bool := inRect ⟨b.left, b.top⟩ (b.width, b.height) p

theorem has_iff (p : Pt) (b : Box S) : has p b = true ↔ b.Has p := by
  unfold has inRect Box.Has
  simp only [Bool.and_eq_true, decide_eq_true_eq]
  constructor
  · rintro ⟨⟨⟨h1, h2⟩, h3⟩, h4⟩
    exact ⟨h1, h2, h3, h4⟩
  · rintro ⟨h1, h2, h3, h4⟩
    exact ⟨⟨⟨h1, h2⟩, h3⟩, h4⟩

/-- `Box.Target`, computed. -/
def target (p : Pt) (b : Box S) : S × Nat := if 2 * (p.x - b.left) > b.width then b.far else b.near

theorem target_iff (p : Pt) (b : Box S) (t : S × Nat) : t = target p b ↔ b.Target p t := by
  unfold target Box.Target
  by_cases h : 2 * (p.x - b.left) > b.width
  · rw [if_pos h]
    constructor
    · exact fun e => .inr ⟨h, e⟩
    · rintro (⟨h1, -⟩ | ⟨-, h1⟩)
      · omega
      · exact h1
  · rw [if_neg h]
    constructor
    · exact fun e => .inl ⟨by omega, e⟩
    · rintro (⟨-, h1⟩ | ⟨h1, -⟩)
      · exact h1
      · omega

/-- The search from the last layer to the first. -/
def search (p : Pt) : List (List (Box S)) → Option (S × Nat)
  | [] => none
  | l :: rest => (search p rest).or ((l.find? (has p)).map (target p))

theorem search_append (p : Pt) (a b : List (List (Box S))) : search p (a ++ b) = (search p b).or (search p a) := by
  induction a with
  | nil => simp [search]
  | cons l a ih => rw [List.cons_append, search, ih, search, Option.or_assoc]

theorem search_none (p : Pt) (ls : List (List (Box S))) : search p ls = none ↔ ∀ l ∈ ls, ∀ b ∈ l, ¬ b.Has p := by
  induction ls with
  | nil => simp [search]
  | cons l ls ih =>
    rw [search, Option.or_eq_none_iff, ih, Option.map_eq_none_iff, List.find?_eq_none]
    constructor
    · rintro ⟨h1, h2⟩ x hx b hb
      rcases List.mem_cons.mp hx with rfl | hx
      · exact fun h => h2 b hb ((has_iff p b).mpr h)
      · exact h1 x hx b hb
    · intro h
      exact ⟨fun x hx => h x (List.mem_cons_of_mem _ hx), fun b hb hh => h l List.mem_cons_self b hb ((has_iff p b).mp hh)⟩

theorem search_some (p : Pt) (ls : List (List (Box S))) (t : S × Nat) :
    search p ls = some t ↔ ∃ b, OnTop ls p b ∧ b.Target p t := by
  induction ls with
  | nil =>
    simp only [search, reduceCtorEq, false_iff]
    rintro ⟨b, ⟨below, left, right, above, h, -⟩, -⟩
    simp at h
  | cons l ls ih =>
    rw [search]
    cases hs : search p ls with
    | some u =>
      rw [Option.some_or, ← hs, ih]
      constructor
      · rintro ⟨b, ⟨below, left, right, above, h1, h2, h3, h4⟩, ht⟩
        exact ⟨b, ⟨l :: below, left, right, above, by rw [h1]; rfl, h2, h3, h4⟩, ht⟩
      · rintro ⟨b, ⟨below, left, right, above, h1, h2, h3, h4⟩, ht⟩
        cases below with
        | nil =>
          simp only [List.nil_append, List.cons.injEq] at h1
          obtain ⟨-, rfl⟩ := h1
          have := (search_none p ls).mpr h3
          rw [hs] at this
          simp at this
        | cons x below =>
          simp only [List.cons_append, List.cons.injEq] at h1
          exact ⟨b, ⟨below, left, right, above, h1.2, h2, h3, h4⟩, ht⟩
    | none =>
      have hn := (search_none p ls).mp hs
      rw [Option.none_or, Option.map_eq_some_iff]
      constructor
      · rintro ⟨b, hb, rfl⟩
        obtain ⟨h1, left, right, h2, h3⟩ := List.find?_eq_some_iff_append.mp hb
        refine ⟨b, ⟨[], left, right, ls, by rw [h2]; rfl, (has_iff p b).mp h1, hn, ?_⟩, (target_iff p b _).mp rfl⟩
        intro c hc hh
        have := h3 c hc
        rw [(has_iff p c).mpr hh] at this
        simp at this
      · rintro ⟨b, ⟨below, left, right, above, h1, h2, h3, h4⟩, ht⟩
        cases below with
        | nil =>
          simp only [List.nil_append, List.cons.injEq] at h1
          obtain ⟨rfl, rfl⟩ := h1
          refine ⟨b, List.find?_eq_some_iff_append.mpr ⟨(has_iff p b).mpr h2, left, right, rfl, ?_⟩, ((target_iff p b t).mpr ht).symm⟩
          intro c hc
          cases hh : has p c with
          | false => rfl
          | true => exact absurd ((has_iff p c).mp hh) (h4 c hc)
        | cons x below =>
          simp only [List.cons_append, List.cons.injEq] at h1
          exact absurd h2 (hn (left ++ b :: right) (by rw [h1.2]; simp) b (by simp))

/-- What a search finds, as the end of a look at items. -/
def hit : Option (S × Nat) → Hit S
  | some t => .found t.1 t.2
  | none => .miss

theorem inRect_shift (o pos : Pt) (size : Int × Int) (click : Pt) :
    inRect pos size ⟨click.x - o.x, click.y - o.y⟩ = inRect ⟨o.x + pos.x, o.y + pos.y⟩ size click := by
  unfold inRect
  congr 1
  · congr 1
    · congr 1
      · exact decide_eq_decide.mpr (by simp only; omega)
      · exact decide_eq_decide.mpr (by simp only; omega)
    · exact decide_eq_decide.mpr (by simp only; omega)
  · exact decide_eq_decide.mpr (by simp only; omega)

theorem clickGlyphs_boxes (w : Spans S) (size : Int) (click o : Pt) (gs : List (Glyph S))
    (h : ∀ g ∈ gs, (∃ f, w.file g.span = some f) ∧ ∃ t, w.isText g.span = some t) : ∀ pos : Pt,
    clickGlyphs w size ⟨click.x - o.x, click.y - o.y⟩ pos gs =
      hit (((glyphBoxes w size (o.x + pos.x) (o.y + pos.y) gs).find? (has click)).map (target click)) := by
  induction gs with
  | nil => intro pos; rfl
  | cons g gs ih =>
    intro pos
    have ih := ih (fun x hx => h x (List.mem_cons_of_mem _ hx))
    rw [clickGlyphs, glyphBoxes, inRect_shift]
    have hh : ∀ n f : S × Nat, has click (⟨o.x + pos.x, o.y + pos.y - size, g.width, size, n, f⟩ : Box S) =
        inRect ⟨o.x + pos.x, o.y + (pos.y - size)⟩ (g.width, size) click := by
      intro n f
      unfold has
      rw [show o.y + (pos.y - size) = o.y + pos.y - size by omega]
    simp only
    cases hr : inRect ⟨o.x + pos.x, o.y + (pos.y - size)⟩ (g.width, size) click with
    | false =>
      rw [List.find?_cons_of_neg (by rw [hh, hr]; decide), if_neg (by decide), ih ⟨pos.x + g.width, pos.y⟩]
      rw [show o.x + (pos.x + g.width) = o.x + pos.x + g.width by omega]
    | true =>
      rw [List.find?_cons_of_pos (by rw [hh, hr]), if_pos rfl]
      obtain ⟨⟨f, hf⟩, t, ht⟩ := h g List.mem_cons_self
      simp only [hf, ht, Option.map_some, hit, target, Option.some.injEq]
      have e : click.x - o.x - pos.x = click.x - (o.x + pos.x) := by omega
      rw [e]
      by_cases hc : 2 * (click.x - (o.x + pos.x)) > g.width
      · cases t <;> simp [hc]
      · cases t <;> simp [hc]

theorem plain_no_link (w : Spans S) (click : Pt) (items : List (Item S)) (h : PlainAll w items) :
    items.any (onLink click) = false := by
  induction items with
  | nil => rfl
  | cons i rest ih =>
    rw [PlainAll] at h
    rw [List.any_cons, ih h.2, Bool.or_false]
    cases i <;> first | rfl | (rw [Plain] at h; exact h.1.elim)

theorem clickItem_search (w : Spans S) (i : Item S) : Plain w i → ∀ o click : Pt,
    clickItem w ⟨click.x - o.x, click.y - o.y⟩ i = hit (search click (layersOf w o i)) := by
  refine Item.rec
    (motive_1 := fun i => Plain w i → ∀ o click : Pt, clickItem w ⟨click.x - o.x, click.y - o.y⟩ i = hit (search click (layersOf w o i)))
    (motive_2 := fun is => PlainAll w is → ∀ o click : Pt, clickItems w ⟨click.x - o.x, click.y - o.y⟩ is = hit (search click (layers w o is)))
    ?_ ?_ ?_ ?_ ?_ ?_ ?_ ?_ i
  · intro pos items ih hp o click
    rw [Plain] at hp
    rw [clickItem, layersOf, plain_no_link w _ items hp, if_neg (by decide)]
    have := ih hp ⟨o.x + pos.x, o.y + pos.y⟩ click
    simp only at this ⊢
    rw [show click.x - o.x - pos.x = click.x - (o.x + pos.x) by omega, show click.y - o.y - pos.y = click.y - (o.y + pos.y) by omega, this]
    cases search click (layers w ⟨o.x + pos.x, o.y + pos.y⟩ items) <;> rfl
  · intro pos size gs hp o click
    rw [Plain] at hp
    rw [clickItem, layersOf, clickGlyphs_boxes w size click o gs hp pos, search, search, Option.none_or]
  · intro pos rect span _ o click
    cases rect with
    | none => simp [clickItem, layersOf, search, hit]
    | some size =>
      rw [clickItem, layersOf, inRect_shift, search, search, Option.none_or]
      cases hr : inRect ⟨o.x + pos.x, o.y + pos.y⟩ size click with
      | false =>
        rw [List.find?_cons_of_neg (by unfold has; rw [hr]; decide)]
        rfl
      | true =>
        rw [List.find?_cons_of_pos (by unfold has; rw [hr])]
        simp [hit, target]
  · intro pos size span _ o click
    rw [clickItem, layersOf, inRect_shift, search, search, Option.none_or]
    cases hr : inRect ⟨o.x + pos.x, o.y + pos.y⟩ size click with
    | false =>
      rw [List.find?_cons_of_neg (by unfold has; rw [hr]; decide)]
      rfl
    | true =>
      rw [List.find?_cons_of_pos (by unfold has; rw [hr])]
      simp [hit, target]
  · intro pos size hp
    rw [Plain] at hp
    exact hp.elim
  · intro _ o click
    simp [clickItem, layersOf, search, hit]
  · intro _ o click
    simp [clickItems, layers, search, hit]
  · intro i rest ih1 ih2 hp o click
    rw [PlainAll] at hp
    rw [clickItems, layers, search_append, ih2 hp.2]
    cases hs : search click (layers w o rest) with
    | none =>
      simp only [hit, Option.none_or]
      exact ih1 hp.1 o click
    | some t => simp [hit]

theorem jump_search (w : Spans S) (frame : List (Item S)) (click : Pt) (hp : PlainAll w frame) :
    jumpFromClick w frame click = search click (layers w ⟨0, 0⟩ frame) := by
  have h := clickItem_search w (.group ⟨0, 0⟩ frame) (by rw [Plain]; exact hp) ⟨0, 0⟩ click
  rw [clickItem, layersOf] at h
  simp only [Int.sub_zero, Int.add_zero] at h
  have e : (⟨click.x, click.y⟩ : Pt) = click := rfl
  rw [e, plain_no_link w _ frame hp, if_neg (by decide)] at h
  unfold jumpFromClick
  rw [plain_no_link w _ frame hp, if_neg (by decide)]
  cases hc : clickItems w click frame <;> rw [hc] at h <;> cases hs : search click (layers w ⟨0, 0⟩ frame) <;>
    simp only [hs, hit, reduceCtorEq, Hit.found.injEq] at h ⊢
  rw [h.1, h.2]

/-- C129: a click leads to the source of the box on top at that point, in the half of it that the point is in; and it
leads nowhere exactly when there is no box at that point.

Partial: for frames without links in which every glyph comes from a file that is there; groups may be nested and moved,
but are not transformed. What happens otherwise is in `link_nowhere`, `link_in_group_falls_through` and
`detached_glyph_shifts`. -/
theorem click_on_top_partial (w : Spans S) (frame : List (Item S)) (click : Pt) (hp : PlainAll w frame) :
    (∀ t, jumpFromClick w frame click = some t ↔ ∃ b, OnTop (layers w ⟨0, 0⟩ frame) click b ∧ b.Target click t) ∧
    (jumpFromClick w frame click = none ↔ ∀ l ∈ layers w ⟨0, 0⟩ frame, ∀ b ∈ l, ¬ b.Has click) := by
  rw [jump_search w frame click hp]
  exact ⟨search_some click _, search_none click _⟩

/-- C129: a click on a link of the page itself leads nowhere in the source, whatever is painted over it. -/
theorem link_nowhere (w : Spans S) (frame : List (Item S)) (click pos : Pt) (size : Int × Int)
    (hl : Item.link pos size ∈ frame) (hx : pos.x ≤ click.x ∧ click.x ≤ pos.x + size.1)
    (hy : pos.y ≤ click.y ∧ click.y ≤ pos.y + size.2) : jumpFromClick w frame click = none := by
  have : frame.any (onLink click) = true := by
    rw [List.any_eq_true]
    refine ⟨_, hl, ?_⟩
    simp only [onLink, inRect, Bool.and_eq_true, decide_eq_true_eq]
    exact ⟨⟨⟨hx.1, hx.2⟩, hy.1⟩, hy.2⟩
  rw [jumpFromClick, if_pos this]

/-- C129, what does not hold: a click on a link inside a group leads to what is behind the group. -/
theorem link_in_group_falls_through (w : Spans S) (pos click : Pt) (size : Int × Int) (s : S)
    (h : inRect pos size click = true) :
    jumpFromClick w [.image pos size s, .group ⟨0, 0⟩ [.link pos size]] click = some (s, 0) := by
  have e : (⟨click.x, click.y⟩ : Pt) = click := rfl
  have h1 : clickItem w click (.group ⟨0, 0⟩ [.link pos size] : Item S) = .miss := by
    simp only [clickItem, Int.sub_zero, e, List.any_cons, onLink, h, Bool.true_or, if_true]
  unfold jumpFromClick
  simp only [List.any_cons, onLink, List.any_nil, Bool.or_false, Bool.false_eq_true, if_false]
  have h2 : clickItems w click [.image pos size s, .group ⟨0, 0⟩ [.link pos size]] = .found s 0 := by
    rw [clickItems, clickItems, clickItems, h1, clickItem, h, if_pos rfl]
  rw [h2]

/-- C129, what does not hold: behind a glyph that comes from no file, such as a number of a list, the glyphs are looked
for where that one is, so that a click on it leads to the source of the next glyph. -/
theorem detached_glyph_shifts (w : Spans S) (size width : Int) (d s : S) (f : Nat) (hd : w.file d = none)
    (hs : w.file s = some f) (ht : w.isText s = some false) (h0 : 0 ≤ size) (h1 : 0 ≤ width) :
    jumpFromClick w [.text ⟨0, 0⟩ size [⟨width, d, 0, 1⟩, ⟨width, s, 0, 1⟩]] ⟨0, 0⟩ = some (s, 0) := by
  have hr : inRect ⟨0, 0 - size⟩ (width, size) ⟨0, 0⟩ = true := by
    simp only [inRect, Bool.and_eq_true, decide_eq_true_eq]
    omega
  unfold jumpFromClick
  simp only [List.any_cons, onLink, List.any_nil, Bool.or_false, Bool.false_eq_true, if_false]
  simp only [clickItems, clickItem, clickGlyphs, hr, if_true, hd, hs, ht, Bool.false_and, Bool.false_eq_true, if_false]

/-- C129, what does not hold: the target of the right half of the last glyph of a text is the end of the text
(`Box.far` when the offset and the length of the glyph add up to the length of the text), and that is shown as the
start of the text, not its end. -/
theorem end_of_text_to_start {P : Type} [DecidableEq P] (find : S → Option (Jump.Element P)) (s : S) (e : Jump.Element P)
    (h : find s = some e) :
    Jump.resolveSpan find s (some (e.hi - e.lo)) = some ⟨e.filepath, Jump.resolveOff e.text e.lo, Jump.resolveOff e.text e.hi⟩ ∧
    Jump.resolveSpan find s (some (e.hi - e.lo)) = Jump.resolveSpan find s (some 0) := by
  constructor
  · simp [Jump.resolveSpan, h]
  · simp only [Jump.resolveSpan, h, Option.map_some, Nat.lt_irrefl, if_false, Nat.add_zero, ite_self]

/-! ## A case -/

/-- Even spans are texts; span 9 is in no file. -/
def sampleSpans : Spans Nat where
  file s := if s = 9 then none else some 0
  isText s := some (s % 2 == 0)
  raw s := s + 1

/-- An image with a moved group of text over it. -/
def sampleFrame : List (Item Nat) :=
  [.image ⟨0, 0⟩ (100, 100) 1, .group ⟨10, 20⟩ [.text ⟨0, 10⟩ 10 [⟨6, 2, 0, 1⟩, ⟨6, 2, 1, 1⟩], .tag]]

example : jumpFromClick sampleSpans sampleFrame ⟨21, 25⟩ = some (2, 2) ∧ jumpFromClick sampleSpans sampleFrame ⟨11, 25⟩ = some (2, 0) ∧
    jumpFromClick sampleSpans sampleFrame ⟨50, 50⟩ = some (1, 0) ∧ jumpFromClick sampleSpans sampleFrame ⟨500, 50⟩ = none := by
  decide

example : PlainAll sampleSpans sampleFrame := by
  simp only [sampleFrame, PlainAll, Plain, and_true, true_and]
  intro g hg
  simp only [List.mem_cons, List.not_mem_nil, or_false] at hg
  rcases hg with rfl | rfl <;> exact ⟨⟨0, rfl⟩, ⟨true, rfl⟩⟩

end Tinymist.Click
