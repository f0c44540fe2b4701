import Verif.Spec.Coloring
import Verif.Props.Pointer

/-!
# Tokens are colored as what they are (C183)
-/

namespace Tinymist.Coloring

open Mode (Kind trivia)
open Pointer

variable {res : Place → Option Resolved} {p : Place}

/-! ## The legend -/

/-- **C183.** The legend can be made, and lists each kind of token at the number that tokens of this kind are sent with. -/
theorem legend_types : ∃ l, legendTypes = some l ∧ l.length = 23 ∧ ∀ c : Color, c ≠ .none → ∃ n, c.name = some n ∧ l[c.index]? = some n := by
  refine ⟨_, rfl, rfl, fun c hc => ?_⟩
  cases c <;> first | exact absurd rfl hc | exact ⟨_, rfl, rfl⟩

/-- **C183.** The legend lists each modifier at its bit. -/
theorem legend_modifiers (m : Modifier) : ∃ i, m.mask = 2 ^ i ∧ legendModifiers[i]? = some m.name := by
  cases m
  · exact ⟨0, rfl, rfl⟩
  · exact ⟨1, rfl, rfl⟩
  · exact ⟨2, rfl, rfl⟩
  · exact ⟨3, rfl, rfl⟩
  · exact ⟨4, rfl, rfl⟩
  · exact ⟨5, rfl, rfl⟩

/-! ## Helpers -/

/-- What the bits of a token mean to an editor. -/
theorem bit_names : legendModifiers[bitStrong]? = some "strong" ∧ legendModifiers[bitEmph]? = some "emph" ∧ legendModifiers[bitMath]? = some "math" ∧
    legendModifiers[bitReadOnly]? = some "readonly" ∧ legendModifiers[bitStatic]? = some "static" ∧ legendModifiers[bitLibrary]? = some "defaultLibrary" ∧
    legendModifiers.length = 6 := by
  decide

/-- What may be added by names. -/
def Extra (m : Nat) : Prop := m = 0 ∨ m = 24 ∨ m = 32

theorem termColor_extra (t : Term) : Extra (termColor t).2 ∧ (termColor t).1 ≠ .none := by
  unfold Extra
  rcases t with _ | v | _
  · decide
  · cases v <;> decide
  · decide

theorem rootColor_extra (r : Root) (t : Option Term) : Extra (rootColor r t).2 ∧ (rootColor r t).1 ≠ .none := by
  rcases r with t' | d | _
  · exact termColor_extra t'
  · unfold Extra; cases d <;> simp [rootColor, ns, maskOf, Modifier.mask, Modifier.ctorIdx]
  · rcases t with _ | t
    · unfold Extra; decide
    · exact termColor_extra t

theorem context_extra {r : Option Resolved} {c : Color} {m : Nat} (h : context r = some (c, m)) : Extra m ∧ c ≠ .none := by
  rcases r with _ | ⟨root, term⟩
  · cases h
  · rcases root with _ | root
    · rcases term with _ | t
      · cases h
      · have := termColor_extra t
        simp only [context, Option.some.injEq] at h
        rw [h] at this
        exact this
    · have := rootColor_extra root term
      simp only [context, Option.some.injEq] at h
      rw [h] at this
      exact this

theorem identColor_extra : Extra (identColor res p).2 ∧ (identColor res p).1 ≠ .none := by
  unfold identColor
  split
  · rename_i c m h
    have := context_extra h
    split
    · refine ⟨this.1, ?_⟩
      simp only
      split <;> decide
    · exact this
  · refine ⟨.inl rfl, ?_⟩
    simp only
    split <;> decide

theorem plainColor_cases {c : Color} {m : Nat} (h : plainColor res p = some (c, m)) :
    (c ≠ .none ∧ m = 0) ∨ ((p.tree.kind = .ident ∨ p.tree.kind = .mathIdent) ∧ identColor res p = (c, m)) := by
  unfold plainColor at h
  split at h
  all_goals first
    | (rename_i hk; exact .inr ⟨by simp [hk], Option.some.inj h⟩)
    | (cases h; exact .inl ⟨by decide, rfl⟩)
    | (split at h <;> first | (cases h; exact .inl ⟨by decide, rfl⟩) | (split at h <;> first | (cases h; exact .inl ⟨by decide, rfl⟩) | cases h))
    | cases h

theorem plainColor_extra {c : Color} {m : Nat} (h : plainColor res p = some (c, m)) : Extra m ∧ c ≠ .none := by
  rcases plainColor_cases h with ⟨h1, h2⟩ | ⟨-, h2⟩
  · exact ⟨.inl h2, h1⟩
  · have := identColor_extra (res := res) (p := p)
    rw [h2] at this
    exact this

theorem nodeColor_extra {c : Color} {m : Nat} (h : nodeColor res p = some (c, m)) : Extra m ∧ c ≠ .none := by
  unfold nodeColor at h
  split at h
  · obtain ⟨q, -, h⟩ := Option.bind_eq_some_iff.1 h
    exact plainColor_extra h
  · exact plainColor_extra h

theorem nodeColor_added : Extra (((nodeColor res p).map Prod.snd).getD 0) := by
  cases h : nodeColor res p with
  | none => exact .inl rfl
  | some x => exact (nodeColor_extra (c := x.1) (m := x.2) h).1

theorem extra_low {m i : Nat} (h : Extra m) (hi : i < 3) : m.testBit i = false := by
  rcases h with rfl | rfl | rfl
  · simp
  · rcases i with _ | _ | _ | i <;> first | decide | omega
  · rcases i with _ | _ | _ | i <;> first | decide | omega

theorem extra_high {m i : Nat} (h : Extra m) (hi : 6 ≤ i) : m.testBit i = false := by
  refine Nat.testBit_lt_two_pow (Nat.lt_of_lt_of_le (?_ : m < 2 ^ 6) (Nat.pow_le_pow_right (by decide) hi))
  rcases h with rfl | rfl | rfl <;> decide

theorem style_bit (k : Kind) : ((styleOf k).testBit bitStrong = true ↔ k = .strong) ∧ ((styleOf k).testBit bitEmph = true ↔ k = .emph) ∧
    ((styleOf k).testBit bitMath = true ↔ k = .math ∨ k = .equation) := by
  cases k <;> decide

theorem style_high (k : Kind) {i : Nat} (hi : 3 ≤ i) : (styleOf k).testBit i = false := by
  refine Nat.testBit_lt_two_pow (Nat.lt_of_lt_of_le (?_ : styleOf k < 2 ^ 3) (Nat.pow_le_pow_right (by decide) hi))
  cases k <;> decide

theorem inherited_style {i : Nat} (hi : i < 3) : ∀ (up : List Frame) (t : Tree),
    ((inherited res t up).testBit i = true ↔ ∃ f ∈ up, (styleOf f.kind).testBit i = true)
  | [], t => by simp [inherited]
  | f :: up, t => by
    rw [inherited, Nat.testBit_or, Bool.or_eq_true, inherited_style hi up, added, Nat.testBit_or, extra_low nodeColor_added hi, Bool.or_false]
    simp only [List.mem_cons, Tree.kind]
    constructor
    · rintro (⟨g, hg, h⟩ | h)
      · exact ⟨g, .inr hg, h⟩
      · exact ⟨f, .inl rfl, h⟩
    · rintro ⟨g, rfl | hg, h⟩
      · exact .inr h
      · exact .inl ⟨g, hg, h⟩

theorem token_style {i : Nat} (hi : i < 3) :
    (token res p).2.testBit i = true ↔ (styleOf p.tree.kind).testBit i = true ∨ ∃ f ∈ p.up, (styleOf f.kind).testBit i = true := by
  unfold token
  rw [Nat.testBit_or, Bool.or_eq_true, inherited_style hi, added, Nat.testBit_or, extra_low nodeColor_added hi, Bool.or_false]
  exact Or.comm

theorem inherited_high {i : Nat} (hi : 6 ≤ i) : ∀ (up : List Frame) (t : Tree), (inherited res t up).testBit i = false
  | [], t => by simp [inherited]
  | f :: up, t => by
    rw [inherited, Nat.testBit_or, inherited_high hi up, added, Nat.testBit_or, extra_high nodeColor_added hi, style_high _ (by omega)]
    rfl

/-! ## Every token -/

/-- **C183.** Every token is of a kind that the legend lists, and has no modifiers but those that it lists. -/
theorem listed : (∃ l n, legendTypes = some l ∧ l[(token res p).1.index]? = some n ∧ (token res p).1.name = some n) ∧
    ∀ i, (token res p).2.testBit i = true → i < legendModifiers.length := by
  constructor
  · obtain ⟨l, h1, -, h2⟩ := legend_types
    have hc : (token res p).1 ≠ .none := by
      unfold token
      cases h : nodeColor res p with
      | none => simp
      | some x => exact (nodeColor_extra (c := x.1) (m := x.2) h).2
    obtain ⟨n, h3, h4⟩ := h2 _ hc
    exact ⟨l, n, h1, h4, h3⟩
  · intro i hi
    have hl : legendModifiers.length = 6 := rfl
    rw [hl]
    refine Nat.lt_of_not_le fun h6 => ?_
    unfold token at hi
    rw [Nat.testBit_or, inherited_high h6, added, Nat.testBit_or, extra_high nodeColor_added h6, style_high _ (by omega)] at hi
    cases hi

/-- **C183.** A token is strong, emphasised or math exactly if it is in a node that is. -/
theorem styles : ((token res p).2.testBit bitStrong = true ↔ Within p [.strong]) ∧ ((token res p).2.testBit bitEmph = true ↔ Within p [.emph]) ∧
    ((token res p).2.testBit bitMath = true ↔ Within p [.math, .equation]) := by
  refine ⟨?_, ?_, ?_⟩
  · rw [token_style (by decide)]
    simp [Within, (style_bit _).1]
  · rw [token_style (by decide)]
    simp [Within, (style_bit _).2.1]
  · rw [token_style (by decide)]
    simp [Within, (style_bit _).2.2]

/-! ## Names -/

theorem nodeColor_name (hn : Name p) : nodeColor res p = some (identColor res p) := by
  obtain ⟨k, t, hp, hk, -⟩ := name_leaf hn
  have e : p.tree.kind = k := by rw [hp]; rfl
  unfold nodeColor plainColor
  rcases hk with rfl | rfl <;> rw [e] <;> rfl

theorem inherited_plain {i : Nat} (hi : 3 ≤ i) : ∀ (up : List Frame) (t : Tree), (∀ f ∈ up, f.kind ∉ named) →
    (inherited res t up).testBit i = false
  | [], t, _ => by simp [inherited]
  | f :: up, t, h => by
    have hf := h f (List.mem_cons_self ..)
    have hx : ((nodeColor res ⟨.inner f.kind (f.left ++ t :: f.right), up⟩).map Prod.snd).getD 0 = 0 := by
      simp only [named, List.mem_cons, List.not_mem_nil, or_false, not_or] at hf
      unfold nodeColor
      rw [if_neg (by exact hf.2.2)]
      cases hc : plainColor res ⟨.inner f.kind (f.left ++ t :: f.right), up⟩ with
      | none => rfl
      | some x =>
        rcases plainColor_cases (c := x.1) (m := x.2) hc with ⟨-, h2⟩ | ⟨h1, -⟩
        · exact h2
        · simp only [Tree.kind] at h1
          exact absurd h1 (by simp [hf])
    rw [inherited, Nat.testBit_or, inherited_plain hi up _ fun g hg => h g (List.mem_cons_of_mem _ hg), added, Nat.testBit_or, hx,
      style_high _ hi]
    simp

theorem token_name (hn : Name p) (hu : ∀ f ∈ p.up, f.kind ∉ named) :
    (token res p).1 = (identColor res p).1 ∧ ∀ i, 3 ≤ i → (token res p).2.testBit i = (identColor res p).2.testBit i := by
  unfold token added
  rw [nodeColor_name hn]
  refine ⟨rfl, fun i hi => ?_⟩
  rw [Nat.testBit_or, inherited_plain hi _ _ hu, Nat.testBit_or, style_high _ hi]
  simp

/-- The color of what a name stands for. -/
def colorOf : Stands → Color × Nat
  | .function => (.function, 0)
  | .type => (.function, 32)
  | .module => (.namespace, 24)

theorem means_color {t : Term} {s : Stands} (h : Means t s) : termColor t = colorOf s := by
  rcases t with _ | v | _
  · cases h; rfl
  · cases v <;> first | (cases h; rfl) | cases h
  · cases h

theorem stands_context {r : Resolved} {s : Stands} (h : StandsFor r s) : context (some r) = some (colorOf s) := by
  cases h with
  | declaredFunction => rfl
  | declaredModule h => rcases h with rfl | rfl | rfl <;> rfl
  | type h => simp only [context, rootColor, means_color h]
  | value h => simp only [context, rootColor, means_color h]
  | term h => simp only [context, means_color h]

/-- **C183**, in part: a name that stands for a function, a type or a module is shown as such wherever it is used. Missing: names bound to
functions as variables, see `variable_of_function`. -/
theorem stands_shown_partial {r : Resolved} {s : Stands} (hn : Name p) (hu : ∀ f ∈ p.up, f.kind ∉ named) (hr : res p = some r) (h : StandsFor r s) :
    (token res p).1.name = some (shown s).1 ∧ (token res p).2.testBit bitReadOnly = (shown s).2.1 ∧
      (token res p).2.testBit bitStatic = (shown s).2.1 ∧ (token res p).2.testBit bitLibrary = (shown s).2.2 := by
  obtain ⟨h1, h2⟩ := token_name (res := res) hn hu
  rw [h1, h2 _ (by decide), h2 _ (by decide), h2 _ (by decide)]
  unfold identColor
  rw [hr, stands_context h]
  clear h
  cases s <;> (simp only [colorOf, reduceCtorEq, if_false]; decide)

/-! ## Calls -/

theorem leftmost_around {q : Place} : ∀ (fs up : List Frame) (t : Tree), (∀ f ∈ fs, f.left = []) → leftmost (fs ++ up) t = some q →
    leftmost up (around t fs) = some q
  | [], up, t, _, h => h
  | f :: fs, up, t, hf, h => by
    rw [around]
    refine leftmost_around fs up _ (fun x hx => hf x (List.mem_cons_of_mem _ hx)) ?_
    have hl := hf f (List.mem_cons_self ..)
    rw [hl, List.nil_append, List.singleton_append, leftmost, leftmostIn]
    have e : (⟨f.kind, [], f.right⟩ : Frame) = f := by
      obtain ⟨k, l, r⟩ := f
      simp only at hl
      rw [hl]
    rw [e]
    rw [List.cons_append] at h
    rw [h]

theorem nextLeaf_right : ∀ (gs up : List Frame) (t : Tree), (∀ g ∈ gs, g.right = []) → nextLeafFrom t (gs ++ up) = nextLeafFrom (around t gs) up
  | [], up, t, _ => rfl
  | g :: gs, up, t, h => by
    have hr := h g (List.mem_cons_self ..)
    rw [List.cons_append, nextLeafFrom, hr, leafOfRight, around, hr, List.append_nil]
    exact nextLeaf_right gs up _ fun x hx => h x (List.mem_cons_of_mem _ hx)

theorem around_leaf_kind {k : Kind} {t : Text} : ∀ (fs : List Frame), around (.leaf k t) fs = .leaf k t ∨ ∃ k' cs, around (.leaf k t) fs = .inner k' cs
  | [] => .inl rfl
  | f :: fs => .inr (by
    rw [around]
    have : ∀ (fs : List Frame) (k : Kind) (cs : List Tree), ∃ k' cs', around (.inner k cs) fs = .inner k' cs' := by
      intro fs
      induction fs with
      | nil => exact fun k cs => ⟨k, cs, rfl⟩
      | cons f fs ih => exact fun k cs => ih _ _
    exact this fs _ _)

/-- The leaf behind a name that another one is next to. -/
theorem adjacent_next {m : Place} (ha : Before p m) {k : Kind} {t : Text} (hm : m.tree = .leaf k t) (hk : (trivia k || k == .error) = false) :
    nextLeaf p = some m ∧ m.offset = p.offset + p.len := by
  obtain ⟨kk, l, r, up, fs, gs, hg, hf, hpu, hmu, hb⟩ := ha
  have hb' : trivia (around m.tree fs).kind = false := by
    rw [← Bool.not_eq_true, blank_iff]
    exact hb
  constructor
  · unfold nextLeaf
    rw [hpu, nextLeaf_right gs _ _ hg, nextLeafFrom]
    have h2 : leftmost (⟨kk, l ++ [around p.tree gs], r⟩ :: up) (around m.tree fs) = some m := by
      refine leftmost_around fs _ _ hf ?_
      rw [← hmu, hm, leftmost, hk, if_neg Bool.false_ne_true, ← hm]
    rw [leafOfRight, hb', if_neg Bool.false_ne_true, h2]
  · unfold Place.offset Place.len
    rw [hmu, hpu, offset_right gs _ p.tree hg, offset_left fs _ hf, offset, offset]
    simp only [fullOf_append, List.length_append, fullOf, List.append_nil]
    omega

mutual
theorem leftmost_in {m : Place} : ∀ (up : List Frame) (t : Tree), leftmost up t = some m → around m.tree m.up = around t up
  | up, .leaf k t, h => by
    rw [leftmost] at h
    split at h
    · cases h
    · cases h; rfl
  | up, .inner k [], h => by
    rw [leftmost] at h
    split at h
    · cases h
    · cases h; rfl
  | up, .inner k (c :: cs), h => by
    rw [leftmost] at h
    exact leftmostIn_in k up [] (c :: cs) h

theorem leftmostIn_in {m : Place} : ∀ (k : Kind) (up : List Frame) (left cs : List Tree), leftmostIn k up left cs = some m →
    around m.tree m.up = around (.inner k (left ++ cs)) up
  | k, up, left, [], h => by rw [leftmostIn] at h; cases h
  | k, up, left, c :: cs, h => by
    rw [leftmostIn] at h
    split at h
    · rename_i q hq
      cases h
      rw [leftmost_in _ c hq, around]
      simp
    · rw [leftmostIn_in k up _ cs h]
      simp
end

theorem leafOfRight_in {m : Place} (k : Kind) (up : List Frame) : ∀ (cs left : List Tree), leafOfRight k up left cs = some m →
    around m.tree m.up = around (.inner k (left ++ cs)) up
  | [], left, h => by cases h
  | c :: cs, left, h => by
    rw [leafOfRight] at h
    split at h
    · rename_i q hq
      cases h
      split at hq
      · cases hq
      · rw [leftmost_in _ c hq, around]
        simp
    · rw [leafOfRight_in k up cs _ h]
      simp

theorem nextLeaf_in {m : Place} : ∀ (up : List Frame) (t : Tree), nextLeafFrom t up = some m → around m.tree m.up = around t up
  | [], t, h => by cases h
  | f :: up, t, h => by
    rw [nextLeafFrom] at h
    split at h
    · rename_i q hq
      cases h
      rw [leafOfRight_in _ _ _ _ hq, around]
    · rw [nextLeaf_in up _ h, around]
      simp

/-- **C183.** A name that stands for nothing that is known is shown as a function if arguments, parameters or content begin right behind it. -/
theorem called_function (hn : Name p) (hu : ∀ f ∈ p.up, f.kind ∉ named) (hr : res p = none) (hc : Called p) :
    (token res p).1 = .function := by
  obtain ⟨h1, -⟩ := token_name (res := res) hn hu
  rw [h1]
  unfold identColor
  rw [hr]
  simp only [context]
  rw [if_pos]
  obtain ⟨m, ha, f, up, hm, h⟩ := hc
  unfold calledHere
  rcases h with ⟨t, ht, hf⟩ | ⟨t, ht, hf⟩
  · obtain ⟨h2, h3⟩ := adjacent_next ha ht rfl
    rw [h2]
    rcases hf with hf | hf <;> simp [h3, ht, Tree.kind, parentKind, hm, hf]
  · obtain ⟨h2, h3⟩ := adjacent_next ha ht rfl
    rw [h2]
    simp [h3, ht, Tree.kind, parentKind, hm, hf]

theorem calledHere_in {root : Tree} (hi : In root p) (hc : calledHere p = true) : CalledIn root p := by
  unfold calledHere at hc
  split at hc
  · cases hc
  · rename_i m hm
    simp only [Bool.and_eq_true, Bool.or_eq_true, beq_iff_eq] at hc
    obtain ⟨h2, h3⟩ := hc
    have hin : In root m := by
      unfold In at hi ⊢
      rw [← hi]
      exact nextLeaf_in _ _ hm
    unfold Place.offset at h2
    rw [offset_eq, offset_eq] at h2
    unfold parentKind at h3
    cases hu' : m.up with
    | nil => rw [hu'] at h3; simp at h3
    | cons f up =>
      rw [hu'] at h3
      simp only [List.head?_cons, Option.map_some, Option.some.injEq] at h3
      exact ⟨m, f, up, hin, hu', h2, h3⟩

/-- **C183.** A name that stands for nothing that is known is shown as a function only if arguments, parameters or content begin right
behind its text, and otherwise as a name in text. -/
theorem unknown_shown {root : Tree} (hn : Name p) (hi : In root p) (hu : ∀ f ∈ p.up, f.kind ∉ named) (hr : res p = none) :
    ((token res p).1.name = some "function" ∧ CalledIn root p) ∨ (token res p).1.name = some "pol" := by
  obtain ⟨h1, -⟩ := token_name (res := res) hn hu
  rw [h1]
  unfold identColor
  rw [hr]
  simp only [context]
  cases hc : calledHere p with
  | true => exact .inl ⟨rfl, calledHere_in hi hc⟩
  | false => exact .inr rfl

/-- **C183**, violated: a name that is bound to a function as a variable is not shown as one where it is not called, though it is known to
be a function. -/
theorem variable_of_function {root : Tree} (hn : Name p) (hi : In root p) (hu : ∀ f ∈ p.up, f.kind ∉ named)
    (hr : res p = some ⟨some (.decl .var), some (.value .func)⟩) (hc : ¬ CalledIn root p) : (token res p).1.name ≠ some "function" := by
  obtain ⟨h1, -⟩ := token_name (res := res) hn hu
  have h : calledHere p = false := by
    cases h : calledHere p with
    | true => exact absurd (calledHere_in hi h) hc
    | false => rfl
  rw [h1]
  unfold identColor
  rw [hr, h]
  decide

/-! ## The hash -/

theorem nextSibling_at (k : Kind) (up : List Frame) {X : Tree} {r : List Tree} (hx : trivia X.kind = false) : ∀ (bs left : List Tree),
    (∀ b ∈ bs, trivia b.kind = true) → nextSibling k up left (bs ++ X :: r) = some ⟨X, ⟨k, left ++ bs, r⟩ :: up⟩
  | [], left, _ => by
    rw [List.nil_append, nextSibling, hx, if_neg Bool.false_ne_true, List.append_nil]
  | b :: bs, left, h => by
    rw [List.cons_append, nextSibling, h b (List.mem_cons_self ..), if_pos rfl, nextSibling_at k up hx bs _ fun x hx => h x (List.mem_cons_of_mem _ hx)]
    simp

theorem added_plain {t : Tree} {up : List Frame} (h : t.kind ∉ named) (hs : t.kind ∉ styled) : added res ⟨t, up⟩ = 0 := by
  simp only [named, styled, List.mem_cons, List.not_mem_nil, or_false, not_or] at h hs
  have hx : ((nodeColor res ⟨t, up⟩).map Prod.snd).getD 0 = 0 := by
    unfold nodeColor
    rw [if_neg (by exact h.2.2)]
    cases hc : plainColor res ⟨t, up⟩ with
    | none => rfl
    | some x =>
      rcases plainColor_cases (c := x.1) (m := x.2) hc with ⟨-, h2⟩ | ⟨h1, -⟩
      · exact h2
      · exact absurd h1 (by simp [h])
  unfold added
  rw [hx]
  have : styleOf t.kind = 0 := by
    unfold styleOf
    split <;> simp_all
  simp only [this]
  rfl

theorem inherited_skip : ∀ (fs up : List Frame) (t : Tree), (∀ f ∈ fs, f.kind ∉ named ∧ f.kind ∉ styled) →
    inherited res t (fs ++ up) = inherited res (around t fs) up
  | [], up, t, _ => rfl
  | f :: fs, up, t, h => by
    have hf := h f (List.mem_cons_self ..)
    rw [List.cons_append, inherited, added_plain (t := .inner f.kind (f.left ++ t :: f.right)) hf.1 hf.2, Nat.or_zero, around,
      inherited_skip fs up _ fun x hx => h x (List.mem_cons_of_mem _ hx)]
    simp

/-- **C183.** A hash is colored as the first token of the expression behind it, with the same modifiers. -/
theorem hash_alike {q : Place} (h : FirstBehind p q) (hq : q.tree.kind ∉ .hash :: .error :: styled) (ht : ¬ Blank q.tree.kind)
    (hf : ∀ f ∈ q.up.take (q.up.length - p.up.length), f.kind ∉ named ∧ f.kind ∉ styled) :
    token res p = token res q := by
  cases h with
  | @mk k l bs r h t lk fs up h1 h2 h3 =>
    have hfs : ∀ f ∈ fs, f.kind ∉ named ∧ f.kind ∉ styled := by
      intro f hx
      refine hf f ?_
      simp only [List.length_append, List.length_cons]
      rw [Nat.add_sub_cancel, List.take_left']
      · exact hx
      · rfl
    simp only [Tree.kind, styled, List.mem_cons, List.not_mem_nil, or_false, not_or] at hq
    have hX : trivia (around (.leaf lk t) fs).kind = false := by
      cases hk : trivia (around (.leaf lk t) fs).kind with
      | false => rfl
      | true =>
        rw [blank_iff] at hk
        simp only [Blank, List.mem_cons, List.not_mem_nil, or_false] at hk
        rcases hk with hk | hk | hk | hk | hk <;> rw [hk] at h3 <;> cases h3
    have hb : behindHash ⟨.leaf .hash h, ⟨k, l, bs ++ around (.leaf lk t) fs :: r⟩ :: up⟩ =
        some ⟨.leaf lk t, fs ++ ⟨k, l ++ .leaf .hash h :: bs, r⟩ :: up⟩ := by
      unfold behindHash
      simp only
      rw [nextSibling_at k up hX bs _ fun b hb => (blank_iff _).2 (h1 b hb), Option.bind_some, h3, if_pos rfl]
      simp only
      have e : l ++ [Tree.leaf .hash h] ++ bs = l ++ .leaf .hash h :: bs := by simp
      rw [e]
      refine leftmost_around fs _ _ h2 ?_
      rw [leftmost, if_neg]
      have : trivia lk = false := by
        cases hk : trivia lk with
        | false => rfl
        | true => exact absurd ((blank_iff lk).1 hk) ht
      simp [this, hq]
    have hn : nodeColor res ⟨.leaf .hash h, ⟨k, l, bs ++ around (.leaf lk t) fs :: r⟩ :: up⟩ =
        nodeColor res ⟨.leaf lk t, fs ++ ⟨k, l ++ .leaf .hash h :: bs, r⟩ :: up⟩ := by
      unfold nodeColor
      rw [if_pos (by rfl), hb, Option.bind_some, if_neg (by exact hq.1)]
    have hin : inherited res (.leaf .hash h) (⟨k, l, bs ++ around (.leaf lk t) fs :: r⟩ :: up) =
        inherited res (.leaf lk t) (fs ++ ⟨k, l ++ .leaf .hash h :: bs, r⟩ :: up) := by
      rw [inherited_skip fs _ _ hfs, inherited, inherited]
      simp
    have hs : styleOf lk = 0 := by
      unfold styleOf
      split <;> simp_all
    unfold token added
    rw [hn, hin]
    simp only [Tree.kind, hs]
    rfl

/-- Tokens whose kind says it all are shown as this kind. -/
theorem plain_shown {n : String} (h : Plain p.tree.kind n) : (token res p).1.name = some n := by
  unfold token nodeColor plainColor
  generalize p.tree.kind = k at h
  cases h with
  | keyword h | punctuation h | operator h | escape h | number h | comment h | marker h | text h =>
    revert h
    cases k <;> first | (intro _; rfl) | (intro h; exact absurd h (by decide))
  | _ => rfl

/-- Stars and underscores are shown by the node that they are in. -/
theorem in_node_shown {k pk : Kind} {n : String} {l r : List Tree} {up : List Frame} (h : InNode k pk n) (hk : p.tree.kind = k)
    (hu : p.up = ⟨pk, l, r⟩ :: up) : (token res p).1.name = some n := by
  unfold token nodeColor plainColor parentKind
  rw [hk, hu]
  cases h <;> rfl

/-- Of the signs of a calculation the one of a product is not shown as an operator. -/
theorem times_text {l r : List Tree} {up : List Frame} (hk : p.tree.kind = .star) (hu : p.up = ⟨.binary, l, r⟩ :: up) :
    (token res p).1.name = some "text" := by
  unfold token nodeColor plainColor parentKind
  rw [hk, hu]
  rfl

/-! ## Examples -/

/-- In `#f(x)`, both the hash and the name are functions. -/
example : token (fun _ => none) ⟨.leaf .hash ['#'], [⟨.markup, [], [.inner .funcCall [.leaf .ident ['f'], .inner .args [.leaf .leftParen ['('],
      .leaf .ident ['x'], .leaf .rightParen [')']]]]⟩]⟩ = (.function, 0) := by
  rfl

/-- Its name is right before its arguments. -/
example : Called ⟨.leaf .ident ['f'], [⟨.funcCall, [], [.inner .args [.leaf .leftParen ['('], .leaf .rightParen [')']]]⟩]⟩ :=
  ⟨⟨.leaf .leftParen ['('], [⟨.args, [], [.leaf .rightParen [')']]⟩, ⟨.funcCall, [.leaf .ident ['f']], []⟩]⟩,
    ⟨.funcCall, [], [], [], [⟨.args, [], [.leaf .rightParen [')']]⟩], [], by simp, by simp, rfl, rfl, by simp [around, Tree.kind, Blank]⟩,
    _, _, rfl, .inl ⟨_, rfl, .inl rfl⟩⟩

/-- The name is the first token behind its hash. -/
example : FirstBehind ⟨.leaf .hash ['#'], [⟨.markup, [], [.inner .funcCall [.leaf .ident ['f'], .inner .args []]]⟩]⟩
    ⟨.leaf .ident ['f'], [⟨.funcCall, [], [.inner .args []]⟩, ⟨.markup, [.leaf .hash ['#']], []⟩]⟩ :=
  .mk (bs := []) (fs := [⟨.funcCall, [], [.inner .args []]⟩]) (by simp) (by simp) rfl

/-- In `#f`, neither is. -/
example : token (fun _ => none) ⟨.leaf .hash ['#'], [⟨.markup, [], [.leaf .ident ['f']]⟩]⟩ = (.interpolated, 0) := by
  rfl

/-- In `*#calc*`, the name of the module is strong, read-only and static. -/
example : token (fun _ => some ⟨none, some (.value .module)⟩) ⟨.leaf .ident ['c'], [⟨.markup, [.leaf .hash ['#']], []⟩,
      ⟨.strong, [.leaf .star ['*']], [.leaf .star ['*']]⟩]⟩ = (.namespace, 25) := by
  rfl

end Tinymist.Coloring
