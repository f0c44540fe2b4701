import Verif.Spec.Listed

/-!
# The symbols of a file are its bindings (C187)
-/

namespace Tinymist.Listed

open Mode (Kind trivia)
open Pointer

/-! ## What is listed -/

theorem Sub.trans {a b c : Tree} (h : Sub a b) (h' : Sub b c) : Sub a c := by
  induction h with
  | self => exact h'
  | child h1 _ ih => exact .child h1 (ih h')

theorem blank_iff (k : Kind) : Blank k ↔ trivia k = true := by cases k <;> simp [Blank, trivia]

theorem inCode_iff (k : Kind) :
    inCode (some k) = true ↔ k ∈ [Kind.leftBracket, .leftBrace, .leftParen, .comma, .colon] ∨ isKeyword k = true := by
  simp only [inCode, Bool.or_eq_true, beq_iff_eq, List.mem_cons, List.not_mem_nil, or_false]
  grind

theorem asValue_iff (a : List Tree) : inCode (a.foldl next none) = true ↔ AsValue a := by
  constructor
  · intro h
    have key : ∀ (n : Nat) (a : List Tree), a.length = n → inCode (a.foldl next none) = true → AsValue a := by
      intro n
      induction n with
      | zero =>
        intro a ha h
        cases List.length_eq_zero_iff.1 ha
        cases h
      | succ n ih =>
        intro a ha h
        rcases List.eq_nil_or_concat a with rfl | ⟨l, y, rfl⟩
        · cases ha
        · rw [List.concat_eq_append] at *
          rw [List.foldl_append] at h
          simp only [List.foldl_cons, List.foldl_nil] at h
          unfold next at h
          split at h
          · rename_i ht
            obtain ⟨u, z, v, rfl, h2, h3, h4⟩ := ih l (by simpa using ha) h
            refine ⟨u, z, v ++ [y], by simp, fun w hw => ?_, h3, h4⟩
            rcases List.mem_append.1 hw with hw | hw
            · exact h2 w hw
            · cases List.mem_singleton.1 hw
              exact (blank_iff _).2 ht
          · rename_i ht
            exact ⟨l, y, [], rfl, fun w hw => (nomatch hw), fun hb => ht ((blank_iff _).1 hb), (inCode_iff _).1 h⟩
    exact key _ a rfl h
  · rintro ⟨u, y, v, rfl, h2, h3, h4⟩
    have h5 : ∀ (v : List Tree) (q : Option Kind), (∀ z ∈ v, Blank z.kind) → v.foldl next q = q := by
      intro v
      induction v with
      | nil => intro q _; rfl
      | cons z v ih =>
        intro q hz
        rw [List.foldl_cons, next, if_pos ((blank_iff _).1 (hz z (List.mem_cons_self ..)))]
        exact ih q fun w hw => hz w (List.mem_cons_of_mem _ hw)
    rw [List.foldl_append, List.foldl_cons, h5 v _ h2, next, if_neg fun h => h3 ((blank_iff _).2 h)]
    exact (inCode_iff _).2 h4

/-- What is found in a node. -/
def Right (ctx : Ctx) (prev : Option Kind) (t : Tree) (x : Sym) : Prop :=
  match x.kind with
  | .variable_ => Bound t x.name ∨ (ctx ≠ .ref ∧ Sub t (.leaf .ident x.name))
  | .function => x.name = "<anonymous>".toList ∨ Named t x.name
  | .label => (t = .leaf .label x.name ∧ inCode prev = false) ∨ ∃ k a b, Sub t (.inner k (a ++ .leaf .label x.name :: b)) ∧ ¬ AsValue a

/-- What is found in one of some nodes. -/
def Among (f : Kind → Bool) (ctx : Ctx) (prev : Option Kind) (cs : List Tree) (x : Sym) : Prop :=
  ∃ a c b, cs = a ++ c :: b ∧ f c.kind = true ∧ Right ctx (a.foldl next prev) c x

theorem Among.here {f : Kind → Bool} {ctx : Ctx} {prev : Option Kind} {c : Tree} {cs : List Tree} {x : Sym} (hf : f c.kind = true)
    (h : Right ctx prev c x) : Among f ctx prev (c :: cs) x := ⟨[], c, cs, rfl, hf, h⟩

theorem Among.there {f : Kind → Bool} {ctx : Ctx} {prev : Option Kind} {c : Tree} {cs : List Tree} {x : Sym}
    (h : Among f ctx (next prev c) cs x) : Among f ctx prev (c :: cs) x := by
  obtain ⟨a, d, b, rfl, h1, h2⟩ := h
  exact ⟨c :: a, d, b, rfl, h1, h2⟩

theorem Among.child {f : Kind → Bool} {ctx : Ctx} {prev : Option Kind} {k : Kind} {cs : List Tree} {x : Sym} (h : Among f ctx none cs x) :
    Right ctx prev (.inner k cs) x := by
  obtain ⟨a, c, b, rfl, -, h⟩ := h
  have hc : c ∈ a ++ c :: b := List.mem_append_right _ (List.mem_cons_self ..)
  unfold Right at *
  split <;> rename_i hk <;> simp only [hk] at h
  · rcases h with h | ⟨h1, h2⟩
    · left
      rcases h with ⟨k', cs', p, h1, h2⟩ | ⟨cs', h1, h2⟩
      · exact .inl ⟨k', cs', p, .child hc h1, h2⟩
      · exact .inr ⟨cs', .child hc h1, h2⟩
    · exact .inr ⟨h1, .child hc h2⟩
  · rcases h with h | ⟨rest, h⟩
    · exact .inl h
    · exact .inr ⟨rest, .child hc h⟩
  · right
    rcases h with ⟨rfl, h⟩ | ⟨k', a', b', h1, h2⟩
    · refine ⟨k, a, b, .self, fun hv => ?_⟩
      rw [← asValue_iff, h] at hv
      cases hv
    · exact ⟨k', a', b', .child hc h1, h2⟩

theorem Right.weaken {ctx : Ctx} {prev : Option Kind} {t : Tree} {x : Sym} (h : Right .ref prev t x) : Right ctx prev t x := by
  unfold Right at *
  split <;> rename_i hk <;> simp only [hk] at h
  · rcases h with h | ⟨h, -⟩
    · exact .inl h
    · exact absurd rfl h
  · exact h
  · exact h

/-- What is found in what is bound. -/
theorem Among.bound {ctx : Ctx} {prev : Option Kind} {k : Kind} {cs : List Tree} {x : Sym} (hk : k = .letBinding ∨ k = .forLoop)
    (h : Among isPattern .var none cs x) : Right ctx prev (.inner k cs) x := by
  have h' : Right .var prev (.inner k cs) x := h.child
  obtain ⟨a, p, b, rfl, hq, h⟩ := h
  have hp : p ∈ a ++ p :: b := List.mem_append_right _ (List.mem_cons_self ..)
  unfold Right at *
  split <;> rename_i hx <;> simp only [hx] at h h'
  · rcases h with h | ⟨-, h⟩
    · rcases h' with h' | h'
      · exact .inl h'
      · left
        rcases h with ⟨k', cs', p', h1, h2⟩ | ⟨cs', h1, h2⟩
        · exact .inl ⟨k', cs', p', .child hp h1, h2⟩
        · exact .inr ⟨cs', .child hp h1, h2⟩
    · left
      left
      refine ⟨k, _, p, .self, hk, hp, ?_, h⟩
      unfold isPattern at hq
      simp only [Bool.or_eq_true, beq_iff_eq] at hq
      rcases hq with (h | h) | h
      · exact .inl h
      · exact .inr (.inl h)
      · exact .inr (.inr h)
  · exact h'
  · exact h'

theorem own_right {ctx : Ctx} {prev : Option Kind} {k : Kind} {t : Text} {x : Sym} (h : x ∈ own ctx prev k t) : Right ctx prev (.leaf k t) x := by
  unfold own at h
  split at h
  · split at h
    · cases h
    · rename_i hc
      cases List.mem_singleton.1 h
      exact .inl ⟨rfl, by simpa using hc⟩
  · split at h
    · cases List.mem_singleton.1 h
      exact .inr ⟨by simp, .self⟩
    · cases List.mem_singleton.1 h
      exact .inr ⟨by simp, .self⟩
    · cases h
  · cases h

/-- Any kind. -/
def any : Kind → Bool := fun _ => true

mutual
theorem visit_right {x : Sym} : ∀ (t : Tree) (ctx : Ctx) (prev : Option Kind), x ∈ visit ctx prev t → Right ctx prev t x
  | .leaf k t, ctx, prev, h => by
    rw [visit] at h
    exact own_right h
  | .inner k cs, ctx, prev, h => by
    rw [visit.eq_def] at h
    dsimp only at h
    split at h
    · rcases visitLet_right cs none h with h | h
      · exact h.bound (.inl rfl)
      · exact h.child.weaken
    · split at h
      · rename_i iter body hf
        rcases List.mem_append.1 h with h | h
        · rcases List.mem_append.1 h with h | h
          · exact (visitFor_right cs none iter body hf (.inl h)).child.weaken
          · exact (visitFirst_right cs isPattern .var none h).bound (.inr rfl)
        · exact (visitFor_right cs none iter body hf (.inr h)).child.weaken
      · rcases List.mem_append.1 h with h | h
        · exact (visitFirst_right cs isPattern .var none h).bound (.inr rfl)
        · exact (visitLast_right cs none h).child.weaken
    · unfold closureSyms at h
      split at h
      · rename_i n hn
        rcases List.mem_cons.1 h with rfl | h
        · right
          cases cs with
          | nil => cases hn
          | cons c cs => cases hn; exact ⟨cs, .self⟩
        · exact (visitLast_right cs none h).child.weaken
      · split at h
        · rename_i b hb
          rcases List.mem_cons.1 h with rfl | h
          · exact .inl rfl
          · exact (visitLast_right cs none (by rw [hb]; exact h)).child.weaken
        · cases h
    · exact (visitFirst_right cs isExpr .ref none h).child.weaken
    · rcases List.mem_append.1 h with h | h
      · exact (visitLast_right cs none h).child.weaken
      · split at h
        · rename_i hctx
          have h2 := (visitFirst_right cs (· == .ident) .var none h).child (prev := prev) (k := .named)
          subst hctx
          unfold Right at *
          split <;> rename_i hx <;> simp only [hx] at h2
          · rcases h2 with h2 | ⟨-, h2⟩
            · exact .inl h2
            · exact .inr ⟨by simp, h2⟩
          · exact h2
          · exact h2
        · cases h
    · split at h
      · cases h
      · have h2 := (visitAll_right cs _ none h).child (prev := prev) (k := k)
        unfold enter at h2
        split at h2
        · exact h2.weaken
        · exact h2.weaken
        · unfold Right at *
          split <;> rename_i hx <;> simp only [hx] at h2
          · rcases h2 with h2 | ⟨-, h2⟩
            · exact .inl h2
            · exact .inl (.inr ⟨cs, .self, h2⟩)
          · exact h2
          · exact h2
        · exact h2

theorem visitAll_right {x : Sym} : ∀ (cs : List Tree) (ctx : Ctx) (prev : Option Kind), x ∈ visitAll ctx prev cs → Among any ctx prev cs x
  | [], ctx, prev, h => by rw [visitAll] at h; cases h
  | c :: cs, ctx, prev, h => by
    rw [visitAll] at h
    rcases List.mem_append.1 h with h | h
    · split at h
      · cases h
      · exact .here rfl (visit_right c ctx prev h)
    · exact (visitAll_right cs ctx _ h).there

theorem visitFirst_right {x : Sym} : ∀ (cs : List Tree) (p : Kind → Bool) (ctx : Ctx) (prev : Option Kind), x ∈ (visitFirst p ctx prev cs).getD [] →
    Among p ctx prev cs x
  | [], p, ctx, prev, h => by rw [visitFirst] at h; cases h
  | c :: cs, p, ctx, prev, h => by
    rw [visitFirst] at h
    split at h
    · rename_i hp
      exact .here hp (visit_right c ctx prev h)
    · exact (visitFirst_right cs p ctx _ h).there

theorem visitLast_right {x : Sym} : ∀ (cs : List Tree) (prev : Option Kind), x ∈ (visitLast prev cs).getD [] → Among any .ref prev cs x
  | [], prev, h => by rw [visitLast] at h; cases h
  | c :: cs, prev, h => by
    rw [visitLast] at h
    split at h
    · rename_i r hr
      exact (visitLast_right cs (next prev c) (by rw [hr]; exact h)).there
    · split at h
      · exact .here rfl (visit_right c .ref prev h)
      · cases h

theorem visitLet_right {x : Sym} : ∀ (cs : List Tree) (prev : Option Kind), x ∈ visitLet prev cs →
    Among isPattern .var prev cs x ∨ Among any .ref prev cs x
  | [], prev, h => by rw [visitLet] at h; cases h
  | c :: cs, prev, h => by
    rw [visitLet] at h
    split at h
    · rename_i hp
      split at h
      · exact .inr (.here rfl (visit_right c .ref prev h))
      · rcases List.mem_append.1 h with h | h
        · exact .inl (.here hp (visit_right c .var prev h))
        · exact .inr (visitLast_right cs _ h).there
    · rcases visitLet_right cs _ h with h | h
      · exact .inl h.there
      · exact .inr h.there

theorem visitFor_right {x : Sym} : ∀ (cs : List Tree) (prev : Option Kind) (i b : List Sym), visitFor prev cs = some (i, b) → x ∈ i ∨ x ∈ b →
    Among any .ref prev cs x
  | [], prev, i, b, h, _ => by rw [visitFor] at h; cases h
  | c :: cs, prev, i, b, h, hx => by
    rw [visitFor] at h
    split at h
    · exact (visitIter_right cs _ i b h hx).there
    · exact (visitFor_right cs _ i b h hx).there

theorem visitIter_right {x : Sym} : ∀ (cs : List Tree) (prev : Option Kind) (i b : List Sym), visitIter prev cs = some (i, b) → x ∈ i ∨ x ∈ b →
    Among any .ref prev cs x
  | [], prev, i, b, h, _ => by rw [visitIter] at h; cases h
  | c :: cs, prev, i, b, h, hx => by
    rw [visitIter] at h
    split at h
    · cases h
      rcases hx with hx | hx
      · exact .here rfl (visit_right c .ref prev hx)
      · exact (visitLast_right cs _ hx).there
    · exact (visitIter_right cs _ i b h hx).there
end

/-- What is listed is there: a variable is written where names are bound, a function is one, under its name, and a label is not written as a value. -/
theorem listed_sound (root : Tree) (x : Sym) (h : x ∈ symbols root) :
    match x.kind with
    | .variable_ => Bound root x.name
    | .function => x.name = "<anonymous>".toList ∨ Named root x.name
    | .label => Labelled root x.name := by
  have := visit_right root .ref none h
  unfold Right at this
  split <;> rename_i hk <;> simp only [hk] at this
  · exact this.elim id fun h => absurd rfl h.1
  · exact this
  · exact this.elim (fun h => .inl h.1) .inr

/-! ## What is not left out -/

theorem first_pattern {cs : List Tree} {p : Tree} {rest : List Tree} (h : FirstPattern cs p rest) :
    ∃ a, cs = a ++ p :: rest ∧ isPattern p.kind = true ∧ ∀ x ∈ a, isPattern x.kind = false := by
  obtain ⟨a, h1, h2, h3⟩ := h
  refine ⟨a, h1, ?_, fun x hx => ?_⟩
  · rcases h2 with h | h | h <;> simp [isPattern, h]
  · obtain ⟨h4, h5, h6⟩ := h3 x hx
    simp [isPattern, h4, h5, h6]

theorem visitLet_at {a : List Tree} {p : Tree} {rest : List Tree} (hp : isPattern p.kind = true) (ha : ∀ x ∈ a, isPattern x.kind = false) :
    ∀ prev, ∃ q, visitLet prev (a ++ p :: rest) =
      if p.kind == .closure then visit .ref q p else visit .var q p ++ (visitLast (next q p) rest).getD [] := by
  induction a with
  | nil =>
    intro prev
    refine ⟨prev, ?_⟩
    rw [List.nil_append, visitLet, if_pos hp]
  | cons c cs ih =>
    intro prev
    rw [List.cons_append, visitLet, ha c (List.mem_cons_self ..)]
    exact ih (fun x hx => ha x (List.mem_cons_of_mem _ hx)) _

theorem visitFirst_at {f : Kind → Bool} {ctx : Ctx} {a : List Tree} {p : Tree} {rest : List Tree} (hp : f p.kind = true) (ha : ∀ x ∈ a, f x.kind = false) :
    ∀ prev, ∃ q, visitFirst f ctx prev (a ++ p :: rest) = some (visit ctx q p) := by
  induction a with
  | nil =>
    intro prev
    refine ⟨prev, ?_⟩
    rw [List.nil_append, visitFirst, if_pos hp]
  | cons c cs ih =>
    intro prev
    rw [List.cons_append, visitFirst, ha c (List.mem_cons_self ..)]
    exact ih (fun x hx => ha x (List.mem_cons_of_mem _ hx)) _

theorem visitLast_none {cs : List Tree} (h : ∀ x ∈ cs, isExpr x.kind = false) : ∀ prev, visitLast prev cs = none := by
  induction cs with
  | nil => intro prev; rw [visitLast]
  | cons c cs ih =>
    intro prev
    rw [visitLast, ih (fun x hx => h x (List.mem_cons_of_mem _ hx)), h c (List.mem_cons_self ..)]
    rfl

theorem visitLast_at {cs : List Tree} {e : Tree} (h : LastExpr cs e) : ∀ prev, ∃ q, visitLast prev cs = some (visit .ref q e) := by
  obtain ⟨a, b, rfl, he, hb⟩ := h
  induction a with
  | nil =>
    intro prev
    refine ⟨prev, ?_⟩
    rw [List.nil_append, visitLast, visitLast_none hb]
    exact if_pos he
  | cons c cs ih =>
    intro prev
    obtain ⟨q, hq⟩ := ih (next prev c)
    refine ⟨q, ?_⟩
    rw [List.cons_append, visitLast, hq]

theorem visitAll_mem {ctx : Ctx} {cs : List Tree} {c : Tree} (hc : c ∈ cs) (hp : plain c.kind = false) :
    ∀ prev, ∃ q, ∀ x ∈ visit ctx q c, x ∈ visitAll ctx prev cs := by
  induction cs with
  | nil => cases hc
  | cons d cs ih =>
    intro prev
    rcases List.mem_cons.1 hc with rfl | hc
    · refine ⟨prev, fun x hx => ?_⟩
      rw [visitAll, hp]
      exact List.mem_append_left _ hx
    · obtain ⟨q, hq⟩ := ih hc (next prev d)
      refine ⟨q, fun x hx => ?_⟩
      rw [visitAll]
      exact List.mem_append_right _ (hq x hx)

theorem visit_ordinary {k : Kind} (h : Ordinary k) (ctx : Ctx) (prev : Option Kind) (cs : List Tree) :
    visit ctx prev (.inner k cs) = visitAll (enter k ctx) none cs := by
  obtain ⟨h1, h2, h3⟩ := h
  have hp : plain k = false := by
    unfold plain
    rw [h2, h3]
    cases k <;> first | rfl | (exact absurd h1 (by decide))
  rw [visit.eq_def]
  dsimp only
  split
  · exact absurd h1 (by decide)
  · exact absurd h1 (by decide)
  · exact absurd h1 (by decide)
  · exact absurd h1 (by decide)
  · exact absurd h1 (by decide)
  · rw [hp]; rfl

theorem ordinary_plain {k : Kind} (h : Ordinary k) : plain k = false := by
  obtain ⟨h1, h2, h3⟩ := h
  unfold plain
  rw [h2, h3]
  cases k <;> first | rfl | (exact absurd h1 (by decide))

theorem Reach.plain {t s : Tree} (h : Reach t s) (hs : Listed.plain s.kind = false) : Listed.plain t.kind = false := by
  cases h with
  | self => exact hs
  | child ho _ _ => exact ordinary_plain ho
  | function _ _ _ => rfl
  | value _ _ _ _ => rfl
  | body _ _ => rfl
  | argument _ _ => rfl
  | loop _ _ _ _ _ => rfl

theorem visitIter_at {b : List Tree} {i : Tree} {c : List Tree} (hi : isExpr i.kind = true) (hb : ∀ x ∈ b, isExpr x.kind = false) :
    ∀ prev, ∃ q, visitIter prev (b ++ i :: c) = some (visit .ref q i, (visitLast (next q i) c).getD []) := by
  induction b with
  | nil =>
    intro prev
    refine ⟨prev, ?_⟩
    rw [List.nil_append, visitIter, if_pos hi]
  | cons d cs ih =>
    intro prev
    rw [List.cons_append, visitIter, hb d (List.mem_cons_self ..)]
    exact ih (fun x hx => hb x (List.mem_cons_of_mem _ hx)) _

theorem visitFor_at {a : List Tree} {t : Text} {b : List Tree} {i : Tree} {c : List Tree} (ha : ∀ x ∈ a, x.kind ≠ .inKw) (hi : isExpr i.kind = true)
    (hb : ∀ x ∈ b, isExpr x.kind = false) :
    ∀ prev, ∃ q, visitFor prev (a ++ .leaf .inKw t :: (b ++ i :: c)) = some (visit .ref q i, (visitLast (next q i) c).getD []) := by
  induction a with
  | nil =>
    intro prev
    rw [List.nil_append, visitFor]
    exact visitIter_at hi hb _
  | cons d cs ih =>
    intro prev
    rw [List.cons_append, visitFor, if_neg (by simpa using ha d (List.mem_cons_self ..))]
    exact ih (fun x hx => ha x (List.mem_cons_of_mem _ hx)) _

theorem reach_visit {t s : Tree} (h : Reach t s) (hs : Listed.plain s.kind = false) : ∀ (ctx : Ctx) (prev : Option Kind),
    ∃ ctx' prev', ∀ x ∈ visit ctx' prev' s, x ∈ visit ctx prev t := by
  induction h with
  | self => intro ctx prev; exact ⟨ctx, prev, fun _ h => h⟩
  | @child k cs c s ho hc hr ih =>
    intro ctx prev
    obtain ⟨q, hq⟩ := visitAll_mem (ctx := enter k ctx) hc (hr.plain hs) none
    obtain ⟨c', p', h'⟩ := ih hs (enter k ctx) q
    refine ⟨c', p', fun x hx => ?_⟩
    rw [visit_ordinary ho]
    exact hq x (h' x hx)
  | @function cs p rest s hf hk hr ih =>
    intro ctx prev
    obtain ⟨a, rfl, h1, h2⟩ := first_pattern hf
    obtain ⟨q, hq⟩ := visitLet_at (rest := rest) h1 h2 none
    obtain ⟨c', p', h'⟩ := ih hs .ref q
    refine ⟨c', p', fun x hx => ?_⟩
    rw [visit, hq, if_pos (by simpa using hk)]
    exact h' x hx
  | @value cs p rest e s hf hk hl hr ih =>
    intro ctx prev
    obtain ⟨a, rfl, h1, h2⟩ := first_pattern hf
    obtain ⟨q, hq⟩ := visitLet_at (rest := rest) h1 h2 none
    obtain ⟨r, hr'⟩ := visitLast_at hl (next q p)
    obtain ⟨c', p', h'⟩ := ih hs .ref r
    refine ⟨c', p', fun x hx => ?_⟩
    rw [visit, hq, if_neg (by simpa using hk), hr']
    exact List.mem_append_right _ (h' x hx)
  | @body cs e s hl hr ih =>
    intro ctx prev
    obtain ⟨r, hr'⟩ := visitLast_at hl none
    obtain ⟨c', p', h'⟩ := ih hs .ref r
    refine ⟨c', p', fun x hx => ?_⟩
    rw [visit, hr']
    unfold closureSyms
    split
    · exact List.mem_cons_of_mem _ (h' x hx)
    · exact List.mem_cons_of_mem _ (h' x hx)
  | @argument cs e s hl hr ih =>
    intro ctx prev
    obtain ⟨r, hr'⟩ := visitLast_at hl none
    obtain ⟨c', p', h'⟩ := ih hs .ref r
    refine ⟨c', p', fun x hx => ?_⟩
    rw [visit, hr']
    exact List.mem_append_left _ (h' x hx)
  | @loop a b i c e s t ha hb hi hl hr ih =>
    intro ctx prev
    obtain ⟨q, hq⟩ := visitFor_at (t := t) (c := c) ha hi hb none
    obtain ⟨r, hr'⟩ := visitLast_at hl (next q i)
    obtain ⟨c', p', h'⟩ := ih hs .ref r
    refine ⟨c', p', fun x hx => ?_⟩
    rw [visit, hq, hr']
    exact List.mem_append_right _ (h' x hx)

theorem binds_visit {p : Tree} {n : Text} (h : Binds p n) : ∀ q, (⟨n, .variable_⟩ : Sym) ∈ visit .var q p := by
  induction h with
  | name => intro q; rw [visit]; exact List.mem_singleton.2 rfl
  | @part k cs c n hk hc hb ih =>
    intro q
    have hp : plain c.kind = false := by
      cases hb with
      | name => rfl
      | part h' _ _ => rcases h' with rfl | rfl | rfl <;> rfl
    obtain ⟨r, hr⟩ := visitAll_mem (ctx := .var) hc hp none
    have : visit .var q (.inner k cs) = visitAll .var none cs := by
      rcases hk with rfl | rfl | rfl
      · exact visit_ordinary ⟨by decide, rfl, rfl⟩ ..
      · exact visit_ordinary ⟨by decide, rfl, rfl⟩ ..
      · exact visit_ordinary ⟨by decide, rfl, rfl⟩ ..
    rw [this]
    exact hr _ (ih r)

/-- The names a `let` binds are listed. -/
theorem let_listed (root : Tree) (cs : List Tree) (p : Tree) (rest : List Tree) (n : Text) (hr : Reach root (.inner .letBinding cs))
    (hf : FirstPattern cs p rest) (hb : Binds p n) : ⟨n, .variable_⟩ ∈ symbols root := by
  obtain ⟨ctx, prev, h⟩ := reach_visit hr rfl .ref none
  apply h
  obtain ⟨a, rfl, h1, h2⟩ := first_pattern hf
  obtain ⟨q, hq⟩ := visitLet_at (rest := rest) h1 h2 none
  have hk : ¬ (p.kind == .closure) = true := by
    cases hb with
    | name => intro h; cases h
    | part h' _ _ => rcases h' with rfl | rfl | rfl <;> (intro h; cases h)
  rw [visit, hq, if_neg hk]
  exact List.mem_append_left _ (binds_visit hb q)

/-- The names a `for` binds are listed. -/
theorem for_listed (root : Tree) (cs : List Tree) (p : Tree) (rest : List Tree) (n : Text) (hr : Reach root (.inner .forLoop cs))
    (hf : FirstPattern cs p rest) (hb : Binds p n) : ⟨n, .variable_⟩ ∈ symbols root := by
  obtain ⟨ctx, prev, h⟩ := reach_visit hr rfl .ref none
  apply h
  obtain ⟨a, rfl, h1, h2⟩ := first_pattern hf
  obtain ⟨q, hq⟩ := visitFirst_at (f := isPattern) (ctx := .var) (rest := rest) h1 h2 none
  rw [visit, hq]
  split
  · exact List.mem_append_left _ (List.mem_append_right _ (binds_visit hb q))
  · exact List.mem_append_left _ (binds_visit hb q)

/-- A function with a name is listed under it. -/
theorem function_listed (root : Tree) (n : Text) (rest : List Tree) (hr : Reach root (.inner .closure (.leaf .ident n :: rest))) :
    ⟨n, .function⟩ ∈ symbols root := by
  obtain ⟨ctx, prev, h⟩ := reach_visit hr rfl .ref none
  apply h
  rw [visit]
  exact List.mem_cons_self ..

/-- A function without one is listed, too. -/
theorem anonymous_listed (root : Tree) (ps : List Tree) (rest : List Tree) (e : Tree) (hr : Reach root (.inner .closure (.inner .params ps :: rest)))
    (he : LastExpr rest e) : ⟨"<anonymous>".toList, .function⟩ ∈ symbols root := by
  obtain ⟨ctx, prev, h⟩ := reach_visit hr rfl .ref none
  apply h
  obtain ⟨a, b, rfl, h1, h2⟩ := he
  obtain ⟨q, hq⟩ := visitLast_at (cs := .inner .params ps :: (a ++ e :: b)) ⟨.inner .params ps :: a, b, rfl, h1, h2⟩ none
  rw [visit, hq]
  exact List.mem_cons_self ..

/-- A label that is not written as a value is listed. -/
theorem label_listed (root : Tree) (k : Kind) (a b : List Tree) (n : Text) (hr : Reach root (.inner k (a ++ .leaf .label n :: b))) (hk : Ordinary k)
    (hv : ¬ AsValue a) : ⟨n, .label⟩ ∈ symbols root := by
  obtain ⟨ctx, prev, h⟩ := reach_visit hr (ordinary_plain hk) .ref none
  apply h
  rw [visit_ordinary hk]
  rw [← asValue_iff] at hv
  generalize (none : Option Kind) = q at hv ⊢
  clear hr h
  induction a generalizing q with
  | nil =>
    rw [List.nil_append, visitAll, visit]
    refine List.mem_append_left _ ?_
    have : own (enter k ctx) q .label n = if inCode q then [] else [⟨n, .label⟩] := rfl
    have hv' : ¬ inCode q = true := hv
    rw [this, if_neg hv']
    exact List.mem_singleton.2 rfl
  | cons c cs ih =>
    rw [List.cons_append, visitAll]
    exact List.mem_append_right _ (ih _ hv)

/-! ## Where the list is wrong -/

/-- `let (k: n) = v`. -/
def takenApart (k n v : Text) : Tree :=
  .inner .code [.inner .letBinding [.leaf .letKw "let".toList, .leaf .space [' '],
    .inner .destructuring [.leaf .leftParen ['('], .inner .named [.leaf .ident k, .leaf .colon [':'], .leaf .space [' '], .leaf .ident n],
      .leaf .rightParen [')']],
    .leaf .space [' '], .leaf .eq ['='], .leaf .space [' '], .leaf .ident v]]

/-- A name bound to what stands under a key is not listed, although it is a binding like any other. -/
theorem keyed_unlisted (k n v : Text) : Bound (takenApart k n v) n ∧ symbols (takenApart k n v) = [] := by
  refine ⟨.inl ⟨.letBinding, _, _, .child (List.mem_singleton.2 rfl) .self, .inl rfl, List.mem_cons_of_mem _ (List.mem_cons_of_mem _ (List.mem_cons_self ..)),
    .inr (.inr rfl), .child (List.mem_cons_of_mem _ (List.mem_cons_self ..)) (.child (c := .leaf .ident n) (by simp) .self)⟩, rfl⟩

/-- `{ n == <l> }` in code. -/
def compared (n l : Text) : Tree :=
  .inner .code [.inner .binary [.leaf .ident n, .leaf .space [' '], .leaf .eqEq "==".toList, .leaf .space [' '], .leaf .label l]]

/-- A label that something is compared with is listed as if it were attached to something. -/
theorem compared_listed (n l : Text) : symbols (compared n l) = [⟨l, .label⟩] := rfl

/-! ## Examples -/

/-- `#let f(x) = { let (a, ..b) = x; y => y }` with a label behind it. -/
def example1 : Tree :=
  .inner .markup [.leaf .hash ['#'], .inner .letBinding [.leaf .letKw "let".toList, .leaf .space [' '],
    .inner .closure [.leaf .ident ['f'], .inner .params [.leaf .leftParen ['('], .leaf .ident ['x'], .leaf .rightParen [')']],
      .leaf .space [' '], .leaf .eq ['='], .leaf .space [' '],
      .inner .codeBlock [.leaf .leftBrace ['{'], .inner .code [
        .inner .letBinding [.leaf .letKw "let".toList, .leaf .space [' '],
          .inner .destructuring [.leaf .leftParen ['('], .leaf .ident ['a'], .leaf .comma [','], .inner .spread [.leaf .dots ['.', '.'], .leaf .ident ['b']],
            .leaf .rightParen [')']],
          .leaf .space [' '], .leaf .eq ['='], .leaf .space [' '], .leaf .ident ['x']],
        .leaf .semicolon [';'],
        .inner .closure [.inner .params [.leaf .ident ['y']], .leaf .arrow ['=', '>'], .leaf .ident ['y']]],
        .leaf .rightBrace ['}']]]], .leaf .space [' '], .leaf .label ['l']]

example : symbols example1 =
    [⟨['f'], .function⟩, ⟨['a'], .variable_⟩, ⟨['b'], .variable_⟩, ⟨"<anonymous>".toList, .function⟩, ⟨['l'], .label⟩] := rfl

example : Binds (.inner .destructuring [.leaf .leftParen ['('], .inner .spread [.leaf .dots ['.', '.'], .leaf .ident ['b']]]) ['b'] :=
  .part (.inl rfl) (List.mem_cons_of_mem _ (List.mem_cons_self ..)) (.part (.inr (.inr rfl)) (List.mem_cons_of_mem _ (List.mem_cons_self ..)) .name)

/-- `for x in y { let z = x }`, as a statement. -/
def example2 : Tree :=
  .inner .code [.inner .forLoop ([.leaf .forKw "for".toList, .leaf .space [' '], .leaf .ident ['x'], .leaf .space [' ']] ++
    .leaf .inKw "in".toList :: ([.leaf .space [' ']] ++ .leaf .ident ['y'] :: [.leaf .space [' '],
      .inner .codeBlock [.inner .code [.inner .letBinding [.leaf .letKw "let".toList, .leaf .ident ['z'], .leaf .eq ['='], .leaf .ident ['x']]]]]))]

example : ⟨['x'], .variable_⟩ ∈ symbols example2 :=
  for_listed _ _ (.leaf .ident ['x']) _ _ (.child ⟨by decide, rfl, rfl⟩ (List.mem_singleton.2 rfl) .self)
    ⟨[.leaf .forKw "for".toList, .leaf .space [' ']], rfl, .inl rfl, by simp [Tree.kind, isExpr]⟩ .name

example : ⟨['z'], .variable_⟩ ∈ symbols example2 :=
  let_listed _ [.leaf .letKw "let".toList, .leaf .ident ['z'], .leaf .eq ['='], .leaf .ident ['x']] (.leaf .ident ['z']) [.leaf .eq ['='], .leaf .ident ['x']] _
    (.child ⟨by decide, rfl, rfl⟩ (List.mem_singleton.2 rfl)
      (.loop (by simp [Tree.kind]) (by simp [Tree.kind, isExpr]) rfl ⟨[.leaf .space [' ']], [], rfl, rfl, by simp⟩
        (.child ⟨by decide, rfl, rfl⟩ (List.mem_singleton.2 rfl) (.child ⟨by decide, rfl, rfl⟩ (List.mem_singleton.2 rfl) .self))))
    ⟨[.leaf .letKw "let".toList], rfl, .inl rfl, by simp [Tree.kind, isExpr]⟩ .name

example : ⟨['f'], .function⟩ ∈ symbols example1 := by decide +kernel

end Tinymist.Listed
