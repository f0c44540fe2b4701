import Verif.Spec.Colors

/-!
# The colors of a file (C128)
-/

namespace Tinymist.Colors

open Spec

variable {C : Type}

theorem workAll_calls (t : Typst C) (ns : List Node) (h : ∀ n ∈ ns, work t n = (calls n).filterMap (fun c => (onCall t c).map (fun v => (c.range, v)))) :
    workAll t ns = (callsIn ns).filterMap (fun c => (onCall t c).map (fun v => (c.range, v))) := by
  induction ns with
  | nil => simp [workAll, callsIn]
  | cons n ns ih =>
    rw [workAll, callsIn, List.filterMap_append, h n List.mem_cons_self, ih (fun x hx => h x (List.mem_cons_of_mem _ hx))]

theorem work_calls (t : Typst C) : ∀ n, work t n = (calls n).filterMap (fun c => (onCall t c).map (fun v => (c.range, v))) := by
  intro n
  refine Node.rec (motive_1 := fun n => work t n = (calls n).filterMap (fun c => (onCall t c).map (fun v => (c.range, v))))
    (motive_2 := fun ns => ∀ n ∈ ns, work t n = (calls n).filterMap (fun c => (onCall t c).map (fun v => (c.range, v))))
    ?_ ?_ ?_ ?_ ?_ n
  · intro c children ih
    rw [work, calls, List.filterMap_cons, workAll_calls t children ih]
    cases onCall t c <;> rfl
  · intro children _
    rw [work, calls]
    rfl
  · intro children ih
    rw [work, calls, workAll_calls t children ih]
  · simp
  · intro a l ha hl x hx
    rcases List.mem_cons.mp hx with rfl | hx
    · exact ha
    · exact hl x hx

theorem names_eq : constNames = ["luma", "oklab", "oklch", "linear-rgb", "cmyk", "hsl", "hsv"].map String.toList := by decide

theorem rgb_eq : rgbName = "rgb".toList := by decide

theorem color_eq : colorName = "color".toList := by decide

theorem rgb_not_maker : ¬ maker rgbName := by
  unfold maker
  decide

theorem onRgb_iff (t : Typst C) (c : Call) (v : C) : onRgb t c = some v ↔
    (∃ s, c.args = [.str s] ∧ t.hex s = some v) ∨ (2 ≤ c.args.length ∧ t.eval c.id = some v) := by
  unfold onRgb
  match c.args with
  | [] => simp
  | [.str s] => simp
  | [.other] => simp
  | a :: b :: r => simp

theorem onName_iff (t : Typst C) (c : Call) (n : List Char) (v : C) : onName t c n = some v ↔
    (n = rgbName ∧ ((∃ s, c.args = [.str s] ∧ t.hex s = some v) ∨ (2 ≤ c.args.length ∧ t.eval c.id = some v))) ∨
    (maker n ∧ t.eval c.id = some v) := by
  unfold onName
  by_cases h : n = rgbName
  · subst h
    rw [if_pos rfl, onRgb_iff]
    simp [rgb_not_maker]
  · rw [if_neg h]
    by_cases hm : n ∈ constNames
    · rw [if_pos hm]
      have : maker n := by rw [maker, ← names_eq]; exact hm
      simp [h, this]
    · rw [if_neg hm]
      have : ¬ maker n := by rw [maker, ← names_eq]; exact hm
      simp [h, this]

theorem onCall_iff (t : Typst C) (c : Call) (v : C) : onCall t c = some v ↔ Shows t c v := by
  have key : onCall t c = some v ↔ ∃ n, Calls c n ∧ onName t c n = some v := by
    unfold onCall Calls
    cases hc : c.callee with
    | ident n =>
      simp only
      constructor
      · intro h
        exact ⟨n, .inl rfl, h⟩
      · rintro ⟨m, h | h, h2⟩
        · cases h
          exact h2
        · cases h
    | field target n =>
      cases target with
      | none =>
        simp only
        constructor
        · intro h
          cases h
        · rintro ⟨m, h | h, -⟩ <;> cases h
      | some x =>
        simp only
        rw [← color_eq]
        by_cases hx : x = colorName
        · rw [if_pos hx]
          constructor
          · intro h
            exact ⟨n, .inr (by rw [hx]), h⟩
          · rintro ⟨m, h | h, h2⟩
            · cases h
            · simp only [Callee.field.injEq] at h
              rw [h.2]
              exact h2
        · rw [if_neg hx]
          constructor
          · intro h
            cases h
          · rintro ⟨m, h | h, -⟩
            · cases h
            · simp only [Callee.field.injEq, Option.some.injEq] at h
              exact absurd h.1 hx
    | other =>
      simp only
      constructor
      · intro h
        cases h
      · rintro ⟨m, h | h, -⟩ <;> cases h
  rw [key]
  constructor
  · rintro ⟨n, hn, h⟩
    rcases (onName_iff t c n v).mp h with ⟨rfl, ⟨s, h1, h2⟩ | ⟨h1, h2⟩⟩ | ⟨h1, h2⟩
    · exact .hex s (rgb_eq ▸ hn) h1 h2
    · exact .rgb (rgb_eq ▸ hn) h1 h2
    · exact .maker n hn h1 h2
  · rintro (⟨s, hn, h1, h2⟩ | ⟨hn, h1, h2⟩ | ⟨n, hn, h1, h2⟩)
    · exact ⟨_, hn, (onName_iff t c _ v).mpr (.inl ⟨rgb_eq.symm, .inl ⟨s, h1, h2⟩⟩)⟩
    · exact ⟨_, hn, (onName_iff t c _ v).mpr (.inl ⟨rgb_eq.symm, .inr ⟨h1, h2⟩⟩)⟩
    · exact ⟨n, hn, (onName_iff t c n v).mpr (.inr ⟨h1, h2⟩)⟩

/-- C128: the colors of a file are shown once for each call that shows one, at the range of the call, in the order of the
text, and nowhere else: the list is what is left of the list of all calls when those that show none are dropped. -/
theorem colors_shown (t : Typst C) (root : Node) :
    ∃ colorOf : Call → Option C, (∀ c v, colorOf c = some v ↔ Shows t c v) ∧
      work t root = (calls root).filterMap (fun c => (colorOf c).map (fun v => (c.range, v))) :=
  ⟨onCall t, onCall_iff t, work_calls t root⟩

/-- C128, what does not hold: a call of `rgb` with a single argument that is not a string is a color to typst, and is
not shown. -/
theorem conversion_not_shown (t : Typst C) (c : Call) (hn : c.callee = .ident "rgb".toList) (ha : c.args = [.other]) :
    work t (.call c []) = [] := by
  have : onCall t c = none := by
    rw [onCall, hn, ← rgb_eq]
    simp only [onName, if_pos, onRgb, ha]
  rw [work, this, workAll]

/-- The tree of a text that is put in place of a call: a string, or a call of `rgb` with a string. -/
def relabel (range : Nat × Nat) (id : Nat) : Label (C := C) → Option Node
  | .quoted _ => some (.other [])
  | .rgbHex h => some (.call { callee := .ident "rgb".toList, args := [.str h], range := range, id := id } [])
  | .printed _ _ => none

/-- C128: the second text that is offered for a color, put in place of a call, is shown as that color, when typst reads
back the digits it prints.

Partial: only the texts with digits are modelled, and the first one is no color (`first_label_no_color`). -/
theorem label_shows_partial (t : Typst C) (toHex : C → List Char) (hround : ∀ c, t.hex (toHex c) = some c) (c : C)
    (range : Nat × Nat) (id : Nat) :
    ∃ l n, (presentations toHex c)[1]? = some l ∧ relabel range id l = some n ∧ work t n = [(range, c)] := by
  refine ⟨.rgbHex (toHex c), _, rfl, rfl, ?_⟩
  rw [work, ← rgb_eq]
  simp only [onCall, onName, if_pos, onRgb, hround, workAll]

/-- C128, what does not hold: the first text that is offered is a string, which is no color any more. -/
theorem first_label_no_color (t : Typst C) (toHex : C → List Char) (c : C) (range : Nat × Nat) (id : Nat) :
    ∃ l n, (presentations toHex c)[0]? = some l ∧ relabel range id l = some n ∧ work t n = [] :=
  ⟨.quoted (toHex c), _, rfl, rfl, by rw [work, workAll]⟩

/-- Reads one string and evaluates one call. -/
def sampleTypst : Typst Nat where
  eval i := if i = 3 then some 30 else none
  hex s := if s = "#fff".toList then some 255 else none

/-- `gradient(rgb("#fff"), color.luma(10%), rgb(x))` with a comment. -/
def sampleTree : Node :=
  .call ⟨.ident "gradient".toList, [.other, .other], (0, 50), 0⟩
    [.other [.call ⟨.ident "rgb".toList, [.str "#fff".toList], (9, 20), 1⟩ [], .skipped [],
      .call ⟨.field (some "color".toList) "luma".toList, [.other], (22, 37), 3⟩ [.other []],
      .call ⟨.ident "rgb".toList, [.other], (39, 45), 4⟩ []]]

example : work sampleTypst sampleTree = [((9, 20), 255), ((22, 37), 30)] := by decide +kernel

end Tinymist.Colors
