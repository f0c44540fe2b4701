import Verif.Spec.Mode

/-!
# The mode at a place (C131)
-/

namespace Tinymist.Mode

open Spec

theorem own_kindMode (k : Kind) (m : Mode) (h : own k = some m) : kindMode k = some m := by
  cases k <;> first | exact h | (cases h; done)

/-- What the table says of a kind without a mode of its own. -/
theorem kindMode_cases (k : Kind) (m : Mode) (h : kindMode k = some m) :
    own k = some m ∨ onlyIn k = some m ∨ (k = .array ∧ m = .code) := by
  cases k <;> first | exact .inl h | exact .inr (.inl h) | (cases h; done) | (cases h; exact .inr (.inr ⟨rfl, rfl⟩))

theorem kindMode_none (k : Kind) (h : kindMode k = none) : own k = none := by
  cases ho : own k with
  | none => rfl
  | some m =>
    rw [own_kindMode k m ho] at h
    cases h

theorem rightmostOf_append (a b : List Tree) :
    rightmostOf (a ++ b) = (rightmostOf b).or (rightmostOf a) := by
  induction a with
  | nil => simp [rightmostOf]
  | cons c a ih =>
    rw [List.cons_append, rightmostOf, ih, rightmostOf]
    cases rightmostOf b with
    | some k => rfl
    | none => cases rightmostOf a <;> rfl

theorem rightmostOf_one (t : Tree) : rightmostOf [t] = rightmost t := by
  rw [rightmostOf, rightmostOf]

theorem solid_first {l : List Tree} (h : First l) : solid l = [] := by
  rw [solid, List.filter_eq_nil_iff]
  intro t ht
  rw [h t ht]
  decide

theorem rightmost_behind {l : List Tree} (h : Behind l) : rightmostOf (solid l) = some .hash := by
  obtain ⟨pre, t, blanks, rfl, rfl, hb⟩ := h
  have : solid (pre ++ Tree.node .hash [] :: blanks) = solid pre ++ [Tree.node .hash []] := by
    rw [solid, List.filter_append, List.filter_cons_of_pos (by decide), show blanks.filter (fun t => !trivia t.kind) = [] from solid_first hb]
    rfl
  rw [this, rightmostOf_append, rightmostOf_one, rightmost]
  rfl

/-- The last node that is no trivia, when there is one. -/
theorem last_solid (l : List Tree) : First l ∨ ∃ pre t blanks, l = pre ++ t :: blanks ∧ trivia t.kind = false ∧ ∀ b ∈ blanks, trivia b.kind = true := by
  induction l with
  | nil => exact .inl fun t ht => by cases ht
  | cons c l ih =>
    rcases ih with h | ⟨pre, t, blanks, h1, h2, h3⟩
    · cases hc : trivia c.kind with
      | true =>
        refine .inl fun t ht => ?_
        rcases List.mem_cons.mp ht with rfl | ht
        · exact hc
        · exact h t ht
      | false => exact .inr ⟨[], c, l, rfl, hc, h⟩
    · exact .inr ⟨c :: pre, t, blanks, by rw [h1]; rfl, h2, h3⟩

theorem rightmost_left {l : List Tree} (hc : ∀ t ∈ l, trivia t.kind = false → Closed t) :
    (rightmostOf (solid l) = none → First l) ∧ (rightmostOf (solid l) = some .hash → Behind l) := by
  rcases last_solid l with h | ⟨pre, t, blanks, h1, h2, h3⟩
  · refine ⟨fun _ => h, fun hr => ?_⟩
    rw [solid_first h, rightmostOf] at hr
    cases hr
  · have ht := hc t (by rw [h1]; simp) h2
    have e : rightmostOf (solid l) = rightmost t := by
      have : solid l = solid pre ++ [t] := by
        rw [h1, solid, List.filter_append, List.filter_cons_of_pos (by rw [h2]; rfl),
          show blanks.filter (fun t => !trivia t.kind) = [] from solid_first h3]
        rfl
      rw [this, rightmostOf_append, rightmostOf_one]
      cases hr : rightmost t with
      | none => exact absurd hr ht.1
      | some k => rfl
    rw [e]
    exact ⟨fun hr => absurd hr ht.1, fun hr => ⟨pre, t, blanks, h1, ht.2 hr, h3⟩⟩

theorem prevLeaf_hash {path : List Step} (hp : Parsed path) (h : prevLeaf path = some .hash) : StartsBehind path := by
  induction hp with
  | top => cases h
  | @step s up hup h1 h2 h3 ih =>
    rw [prevLeaf] at h
    obtain ⟨e1, e2⟩ := rightmost_left h2
    cases hr : rightmostOf (solid s.left) with
    | none =>
      rw [hr] at h
      exact .up (e1 hr) (ih h)
    | some k =>
      rw [hr] at h
      cases h
      exact .here (e2 hr)

theorem first_not_behind {l : List Tree} (h : First l) : ¬ Behind l := by
  rintro ⟨pre, t, blanks, rfl, rfl, -⟩
  have := h (.node .hash []) (by simp)
  cases this

theorem starts_code {path : List Step} (hs : StartsBehind path) : Parsed path →
    (∀ s up, path = s :: up → trivia s.kind = false) →
    (∀ pre suf, path = pre ++ suf → ¬ Opening suf) → (∀ s up m, path = s :: up → own s.kind = some m → m = .code) →
    Reads path .code := by
  induction hs with
  | @here s up hb =>
    intro hp ht ho hown
    cases h : own s.kind with
    | none => exact .hash h (ht s up rfl) hb
    | some m => exact (hown s up m rfl h) ▸ .own h
  | @up s up hf hs ih =>
    intro hp ht ho hown
    cases h : own s.kind with
    | some m => exact (hown s up m rfl h) ▸ .own h
    | none =>
      refine .inner h (.inr (first_not_behind hf)) ?_
      cases hp with
      | step hup h1 h2 h3 =>
        refine ih hup ?_ ?_ ?_
        · rintro u up' rfl
          exact h3 u rfl
        · rintro pre suf rfl
          exact ho (s :: pre) suf rfl
        · rintro u up' m rfl hm
          cases Decidable.em (m = .code) with
          | inl h => exact h
          | inr hne => exact absurd (Opening.mk hf hm hne hs) (ho [] _ rfl)

/-- C131: the mode that is given for a place is the mode in which the parser reads it: that of the closest block,
equation, string, raw text or comment around it, or code behind a hash.

Partial: an array is taken for code, and it is not in a row of a matrix (`matrix_row_code`); and the first mark of a block
behind a hash is taken for code (`block_behind_hash`). -/
theorem mode_read_partial (path : List Step) (hp : Parsed path) (ho : ∀ pre suf, path = pre ++ suf → ¬ Opening suf)
    (ha : ∀ pre s up, path = pre ++ s :: up → s.kind = .array → Reads (s :: up) .code) :
    Reads path (interpretModeAt path) := by
  induction hp with
  | top => exact .top
  | @step s up hup h1 h2 h3 ih =>
    have ih := ih (fun pre suf h => ho (s :: pre) suf (by rw [h]; rfl)) (fun pre t u h => ha (s :: pre) t u (by rw [h]; rfl))
    rw [interpretModeAt]
    cases hk : kindMode s.kind with
    | some m =>
      rcases kindMode_cases s.kind m hk with h | h | ⟨h, rfl⟩
      · exact .own h
      · exact h1 m h
      · exact ha [] s up rfl h
    | none =>
      have hown := kindMode_none s.kind hk
      simp only
      by_cases hc : trivia s.kind = false ∧ prevLeaf (s :: up) = some .hash
      · rw [if_pos (by rw [hc.1, hc.2]; decide)]
        have hs := prevLeaf_hash (.step hup h1 h2 h3) hc.2
        refine starts_code hs (.step hup h1 h2 h3) ?_ ho ?_
        · rintro t u h
          cases h
          exact hc.1
        · rintro t u m h hm
          cases h
          rw [hown] at hm
          cases hm
      · rw [if_neg]
        · refine .inner hown ?_ ih
          cases ht : trivia s.kind with
          | true => exact .inl rfl
          | false =>
            refine .inr fun hb => hc ⟨ht, ?_⟩
            rw [prevLeaf, rightmost_behind hb]
        · simp only [Bool.and_eq_true, Bool.not_eq_true', beq_iff_eq]
          exact hc

/-- A place is read in one mode. -/
theorem reads_unique {path : List Step} {m n : Mode} (h : Reads path m) (h' : Reads path n) : m = n := by
  induction h generalizing n with
  | top => cases h'; rfl
  | own h => cases h' with
    | own h2 => rw [h] at h2; cases h2; rfl
    | hash h2 _ _ => rw [h] at h2; cases h2
    | inner h2 _ _ => rw [h] at h2; cases h2
  | hash h1 h2 h3 => cases h' with
    | own h => rw [h1] at h; cases h
    | hash _ _ _ => rfl
    | inner _ h5 _ =>
      rcases h5 with h5 | h5
      · rw [h2] at h5; cases h5
      · exact absurd h3 h5
  | inner h1 h2 _ ih => cases h' with
    | own h => rw [h1] at h; cases h
    | hash _ h4 h5 =>
      rcases h2 with h2 | h2
      · rw [h4] at h2; cases h2
      · exact absurd h5 h2
    | inner _ _ h6 => exact ih h6

/-! ## Where it goes wrong -/

/-- The path to the space in the row `1, 2;` of `$mat(1, 2; 3)$`: the space, the row, the arguments, the call, the
formula, the equation and the markup. -/
def matrixSpace : List Step :=
  [⟨.space, [.node .mathText [], .node .comma []]⟩, ⟨.array, [.node .leftParen []]⟩, ⟨.args, [.node .mathIdent []]⟩,
    ⟨.funcCall, []⟩, ⟨.math, [.node .dollar []]⟩, ⟨.equation, []⟩, ⟨.markup, []⟩]

theorem not_behind_of_last {l : List Tree} (h : rightmostOf (solid l) ≠ some .hash) : ¬ Behind l :=
  fun hb => h (rightmost_behind hb)

/-- C131, what does not hold: a blank or a comma in a row of a matrix is in math, and is said to be in code. -/
theorem matrix_row_code : interpretModeAt matrixSpace = .code ∧ Reads matrixSpace .math := by
  refine ⟨by decide, ?_⟩
  refine .inner rfl (.inl rfl) (.inner rfl (.inr (not_behind_of_last (by decide))) (.inner rfl (.inr (not_behind_of_last (by decide)))
    (.inner rfl (.inr (not_behind_of_last (by decide))) (.own rfl))))

/-- C131, what does not hold: the bracket of a block behind a hash, that is the place in `#[|`, is said to be in code,
while the block is markup, and likewise the dollar of an equation and the first backtick of a raw text. -/
theorem block_behind_hash (k : Kind) (m : Mode) (hm : own k = some m) (open_ : Kind) (hk : kindMode open_ = none)
    (ht : trivia open_ = false) (up : List Step) :
    interpretModeAt (⟨open_, []⟩ :: ⟨k, [.node .hash []]⟩ :: up) = .code ∧
    Reads (⟨open_, []⟩ :: ⟨k, [.node .hash []]⟩ :: up) m := by
  refine ⟨?_, .inner (kindMode_none _ hk) (.inr fun h => ?_) (.own hm)⟩
  · have hp : prevLeaf (⟨open_, []⟩ :: ⟨k, [.node .hash []]⟩ :: up) = some .hash := by
      rw [prevLeaf, prevLeaf]
      have h1 : rightmostOf (solid ([] : List Tree)) = none := by decide
      have h2 : rightmostOf (solid [Tree.node .hash []]) = some .hash := by decide
      simp only [h1, h2]
    rw [interpretModeAt]
    simp only [hk]
    rw [hp, ht, if_pos (by decide)]
  · obtain ⟨pre, t, blanks, h, -⟩ := h
    simp at h

example : ∃ m, own .contentBlock = some m ∧ m = .markup ∧ kindMode .leftBracket = none ∧ trivia .leftBracket = false :=
  ⟨.markup, rfl, rfl, rfl, rfl⟩

/-- C131, what does not hold: the end of a file is said to be markup, whatever is written there, also behind a hash. -/
theorem end_of_file_markup (length : Nat) (leaf : List Step) : modeAt length length leaf = .markup := by
  rw [modeAt, if_pos (.inr (Nat.le_refl _))]

/-- C131: within the file the answer is that of the leaf before the position. -/
theorem mode_within (length pos : Nat) (leaf : List Step) (h0 : 0 < pos) (h : pos < length) :
    modeAt length pos leaf = interpretModeAt leaf := by
  rw [modeAt, if_neg]
  omega

/-! ## A case -/

/-- The path to `x` in `a #f(x)`. -/
def samplePlace : List Step :=
  [⟨.ident, [.node .leftParen []]⟩, ⟨.args, [.node .ident []]⟩, ⟨.funcCall, [.node .text [], .node .space [], .node .hash []]⟩, ⟨.markup, []⟩]

example : interpretModeAt samplePlace = .code := by decide

theorem closed_leaf (k : Kind) (hk : trivia k = false) : Closed (.node k []) := by
  have e : rightmost (.node k []) = some k := by simp [rightmost, hk]
  refine ⟨by simp [e], fun h => ?_⟩
  rw [e] at h
  cases h
  rfl

theorem sample_parsed : Parsed samplePlace := by
  refine .step (.step (.step (.step .top ?_ ?_ ?_) ?_ ?_ ?_) ?_ ?_ ?_) ?_ ?_ ?_ <;>
    first
    | (intro m h; cases h; done)
    | (intro u h; cases h; done)
    | (intro u h; cases h; rfl)
    | (intro t ht htr
       simp only [List.mem_cons, List.not_mem_nil, or_false] at ht
       first
       | (subst ht; exact closed_leaf _ htr)
       | (rcases ht with rfl | rfl | rfl <;> exact closed_leaf _ htr))

theorem sample_not_first {l : List Tree} (k : Kind) (hk : trivia k = false) (h : Tree.node k [] ∈ l) : ¬ First l := by
  intro hf
  have := hf _ h
  rw [show (Tree.node k []).kind = k from rfl, hk] at this
  cases this

/-- The hypotheses of `mode_read_partial` hold for `x` in `a #f(x)`. -/
example : Reads samplePlace .code := by
  refine mode_read_partial samplePlace sample_parsed ?_ ?_
  · intro pre suf h ho
    cases ho with
    | @mk s u up m hf hm hne hs =>
      match pre, h with
      | [], h => cases h; exact sample_not_first .leftParen rfl (by simp) hf
      | [_], h => cases h; exact sample_not_first .ident rfl (by simp) hf
      | [_, _], h => cases h; exact sample_not_first .hash rfl (by simp) hf
      | [_, _, _], h => cases h
      | _ :: _ :: _ :: _ :: _, h => simp [samplePlace] at h
  · intro pre s up h hk
    match pre, h with
    | [], h => cases h; cases hk
    | [_], h => cases h; cases hk
    | [_, _], h => cases h; cases hk
    | [_, _, _], h => cases h; cases hk
    | _ :: _ :: _ :: _ :: _, h => simp [samplePlace] at h

end Tinymist.Mode
