import Verif.Spec.Pointer

/-!
# What the cursor is on (C147)
-/

namespace Tinymist.Pointer

open Mode (Kind kindMode trivia)

/-! ## Finding leaves -/

theorem fullOf_append (a b : List Tree) : fullOf (a ++ b) = fullOf a ++ fullOf b := by
  induction a with
  | nil => rfl
  | cons x a ih => rw [List.cons_append, fullOf, fullOf, ih, List.append_assoc]

theorem offset_eq (up : List Frame) : offset up = (textBefore up).length := by
  induction up with
  | nil => rfl
  | cons f up ih => rw [offset, textBefore, List.length_append, ih]

theorem skip_left (k : Kind) (up : List Frame) (t : Tree) (r : List Tree) : ∀ (l acc : List Tree) (c : Nat), 0 < c → c ≤ t.full.length →
    leafBeforeIn k up ((fullOf l).length + c) acc (l ++ t :: r) = leafBefore (⟨k, acc ++ l, r⟩ :: up) c t
  | [], acc, c, h0, hc => by
    rw [fullOf, List.length_nil, Nat.zero_add, List.nil_append, leafBeforeIn, if_pos (.inl ⟨h0, hc⟩), List.append_nil]
  | x :: l, acc, c, h0, hc => by
    rw [List.cons_append, leafBeforeIn, fullOf, List.length_append, if_neg (by omega), if_neg (by omega),
      show x.full.length + (fullOf l).length + c - x.full.length = (fullOf l).length + c by omega, skip_left k up t r l _ c h0 hc,
      List.append_assoc, List.singleton_append]

theorem leaf_around : ∀ (up : List Frame) {t : Tree} (c : Nat), 0 < c → c ≤ t.full.length →
    leafBefore [] (offset up + c) (around t up) = leafBefore up c t
  | [], t, c, _, _ => by rw [around, offset, Nat.zero_add]
  | f :: up, u, c, h0, hc => by
    have hl : (Tree.inner f.kind (f.left ++ [u] ++ f.right)).full.length = (fullOf f.left).length + u.full.length + (fullOf f.right).length := by
      rw [Tree.full, fullOf_append, fullOf_append, List.length_append, List.length_append, fullOf, fullOf, List.append_nil]
    rw [around, offset, Nat.add_assoc, leaf_around up _ (by omega) (by omega)]
    have e : f.left ++ [u] ++ f.right = f.left ++ u :: f.right := by simp
    have hs := skip_left f.kind up u f.right f.left [] c h0 hc
    rw [e]
    cases hx : f.left ++ u :: f.right with
    | nil => simp at hx
    | cons a b =>
      rw [leafBefore, ← hx, hs, List.nil_append]

theorem leaf_found {root : Tree} {k : Kind} {t : Text} {up : List Frame} {c : Nat} (h : In root ⟨.leaf k t, up⟩) (h0 : 0 < c) (hc : c ≤ t.length) :
    leafBefore [] (offset up + c) root = some ⟨.leaf k t, up⟩ := by
  unfold In at h
  rw [← h]
  exact (leaf_around up (t := .leaf k t) c h0 hc).trans (by rw [leafBefore, if_pos hc])

theorem around_len : ∀ (up : List Frame) (t : Tree), offset up + t.full.length ≤ (around t up).full.length
  | [], t => by rw [offset, around, Nat.zero_add]; exact Nat.le_refl _
  | f :: up, t => by
    have hl : (Tree.inner f.kind (f.left ++ [t] ++ f.right)).full.length = (fullOf f.left).length + t.full.length + (fullOf f.right).length := by
      rw [Tree.full, fullOf_append, fullOf_append, List.length_append, List.length_append, fullOf, fullOf, List.append_nil]
    have := around_len up (.inner f.kind (f.left ++ [t] ++ f.right))
    rw [around, offset]
    omega

theorem on_leaf {root : Tree} {k : Kind} {t : Text} {up : List Frame} {pos : Nat} (h : In root ⟨.leaf k t, up⟩) (ho : On ⟨.leaf k t, up⟩ pos) :
    leafBefore [] (pos + 1) root = some ⟨.leaf k t, up⟩ ∧ min (pos + 1) root.full.length = pos + 1 := by
  obtain ⟨h1, h2⟩ := ho
  simp only [Tree.text] at h1 h2
  rw [← offset_eq] at h1 h2
  have e : pos + 1 = offset up + (pos + 1 - offset up) := by omega
  refine ⟨by rw [e]; exact leaf_found h (by omega) (by omega), ?_⟩
  have := around_len up (.leaf k t)
  rw [h] at this
  simp only [Tree.full] at this
  omega

theorem looked_on {root : Tree} {k : Kind} {t : Text} {up : List Frame} {pos : Nat} (h : In root ⟨.leaf k t, up⟩) (ho : On ⟨.leaf k t, up⟩ pos)
    (hm : isMark k = false) : lookedAt root pos = some ⟨.leaf k t, up⟩ := by
  obtain ⟨h1, h2⟩ := on_leaf h ho
  unfold lookedAt
  simp only [h2, h1, Option.map_some, Tree.kind, hm, Bool.false_eq_true, and_false, if_false]

/-! ## Names -/

theorem isField_iff {t : Tree} {f : Frame} {up : List Frame} :
    isField ⟨t, f :: up⟩ = true ↔ f.kind = .fieldAccess ∧ (∀ x ∈ f.right, x.kind ≠ .ident) ∧ t.kind = .ident := by
  simp only [isField, Bool.and_eq_true, beq_iff_eq, List.all_eq_true, bne_iff_ne]
  constructor
  · rintro ⟨⟨a, b⟩, c⟩
    exact ⟨a, c, b⟩
  · rintro ⟨a, c, b⟩
    exact ⟨⟨a, b⟩, c⟩

theorem firstExpr_at {t : Tree} {up : List Frame} (h : isExpr t.kind = true) :
    firstExpr t up = if isFieldBehindDot ⟨t, up⟩ then Place.parent ⟨t, up⟩ else some ⟨t, up⟩ := by
  cases up with
  | nil => rw [firstExpr, if_pos h]; rfl
  | cons f up =>
    rw [firstExpr, if_pos h]
    rfl

theorem adjust_access {k : Kind} {cs : List Tree} {up : List Frame} (h1 : k ≠ .parenthesized) (h2 : k ≠ .ident) :
    adjust ⟨.inner k cs, up⟩ = some ⟨.inner k cs, up⟩ := by
  have hf : isField ⟨.inner k cs, up⟩ = false := by
    cases up with
    | nil => rfl
    | cons f up =>
      rw [← Bool.not_eq_true, isField_iff]
      exact fun h => h2 h.2.2
  unfold adjust
  rw [unparen, if_neg h1]
  simp [hf]

theorem adjust_leaf {k : Kind} {t : Text} {up : List Frame} :
    adjust ⟨.leaf k t, up⟩ = if isField ⟨.leaf k t, up⟩ then Place.parent ⟨.leaf k t, up⟩ else some ⟨.leaf k t, up⟩ := by
  unfold adjust
  rw [unparen]
  rfl

theorem meaning_classified {p : Place} (hn : Name p) {c : Class} (hm : Meaning p c) :
    ((firstExpr p.tree p.up).bind fun e => (adjust e).bind classOf) = some c := by
  obtain ⟨t, _, ht⟩ := hn
  obtain ⟨tree, up⟩ := p
  simp only at ht
  have hk : isExpr tree.kind = true := by rcases ht with h | h <;> rw [h] <;> rfl
  have hl : ∃ k, tree = .leaf k t ∧ (k = .ident ∨ k = .mathIdent) := by
    rcases ht with h | h
    · exact ⟨_, h, .inl rfl⟩
    · exact ⟨_, h, .inr rfl⟩
  obtain ⟨k, rfl, hkk⟩ := hl
  have hself : classOf ⟨.leaf k t, up⟩ = some (.ident ⟨.leaf k t, up⟩) := by
    rcases hkk with rfl | rfl <;> rfl
  simp only []
  rw [firstExpr_at hk]
  cases hm with
  | @field t' f up hf hr hi =>
    have h1 : isField ⟨.leaf k t, f :: up⟩ = true := isField_iff.2 ⟨hf, hr, hi⟩
    have hp : Place.parent ⟨.leaf k t, f :: up⟩ = some ⟨.inner .fieldAccess (f.left ++ [.leaf k t] ++ f.right), up⟩ := by
      simp only [Place.parent, hf, List.append_assoc, List.singleton_append]
    by_cases hd : isFieldBehindDot ⟨.leaf k t, f :: up⟩ = true
    · rw [if_pos hd, hp, Option.bind_some, adjust_access (by decide) (by decide)]
      rfl
    · rw [if_neg hd, Option.bind_some, adjust_leaf, if_pos h1, hp]
      rfl
  | @«variable» t' f up hno =>
    have h1 : isField ⟨.leaf k t, f :: up⟩ = false := by
      rw [← Bool.not_eq_true, isField_iff]
      exact hno
    have h2 : isFieldBehindDot ⟨.leaf k t, f :: up⟩ = false := by
      simp [isFieldBehindDot, h1]
    rw [h2, if_neg Bool.false_ne_true, Option.bind_some, adjust_leaf, h1, if_neg Bool.false_ne_true, Option.bind_some, hself]
  | alone =>
    have h2 : isFieldBehindDot ⟨.leaf k t, []⟩ = false := rfl
    have h1 : isField ⟨.leaf k t, []⟩ = false := rfl
    rw [h2, if_neg Bool.false_ne_true, Option.bind_some, adjust_leaf, h1, if_neg Bool.false_ne_true, Option.bind_some, hself]

theorem name_leaf {p : Place} (hn : Name p) : ∃ k t, p = ⟨.leaf k t, p.up⟩ ∧ (k = .ident ∨ k = .mathIdent) ∧ t ≠ [] := by
  obtain ⟨t, hne, ht⟩ := hn
  obtain ⟨tree, up⟩ := p
  rcases ht with rfl | rfl
  · exact ⟨_, _, rfl, .inl rfl, hne⟩
  · exact ⟨_, _, rfl, .inr rfl, hne⟩

/-- Nothing is special. -/
def ordinary (k : Kind) : Bool := k != .dot && k != .text && k != .mathText && k != .error && k != .dots

theorem classifyNode_plain {isIdent : Text → Bool} {p : Place} {cursor : Nat} {k : Kind} (hk : p.tree.kind = k) (h : ordinary k = true) :
    classifyNode isIdent p cursor = (firstExpr p.tree p.up).bind fun e => (adjust e).bind classOf := by
  simp only [ordinary, Bool.and_eq_true, bne_iff_ne, ne_eq] at h
  obtain ⟨⟨⟨⟨h1, h2⟩, h3⟩, h4⟩, h5⟩ := h
  unfold classifyNode
  simp only [hk, h1, h2, h3, h4, h5, false_or, false_and, and_false, if_false]
  rfl

theorem firstExpr_up {t : Tree} {f : Frame} {up : List Frame} (h : isExpr t.kind = false) :
    firstExpr t (f :: up) = firstExpr (.inner f.kind (f.left ++ t :: f.right)) up := by
  rw [firstExpr, h, if_neg Bool.false_ne_true]

theorem classify_name {isIdent : Text → Bool} {p : Place} (hn : Name p) {c : Class} (hm : Meaning p c) (cursor : Nat) :
    classify isIdent p cursor = some c := by
  have hc := meaning_classified hn hm
  obtain ⟨k, t, hp, hk, _⟩ := name_leaf hn
  have e : p.tree.kind = k := by rw [hp]; rfl
  have hs : canSkip p cursor = false := by
    unfold canSkip
    cases hu : p.up with
    | nil => rfl
    | cons f up =>
      have : trivia p.tree.kind = false := by rw [e]; rcases hk with rfl | rfl <;> rfl
      simp [this]
  unfold classify
  rw [if_neg (by rw [e]; rcases hk with rfl | rfl <;> simp), hs, if_neg Bool.false_ne_true, classifyNode_plain e (by rcases hk with rfl | rfl <;> rfl), hc]

/-- A name is what is looked up from every position on it: for definitions, references and renaming, and for hovering. It is the field
access whose field it is, or itself. -/
theorem name_found (isIdent : Text → Bool) {root : Tree} {p : Place} {c : Class} {pos : Nat} (hn : Name p) (hi : In root p) (ho : On p pos)
    (hm : Meaning p c) : forDecl isIdent root pos = some c ∧ forHover isIdent root pos = some c := by
  have hcl := fun cur => classify_name (isIdent := isIdent) hn hm cur
  obtain ⟨k, t, hp, hk, _⟩ := name_leaf hn
  rw [hp] at hi ho hcl
  obtain ⟨h1, h2⟩ := on_leaf hi ho
  constructor
  · unfold forDecl
    rw [looked_on hi ho (by rcases hk with rfl | rfl <;> rfl), Option.bind_some, hcl]
  · unfold forHover
    rw [h1, Option.bind_some, hcl]

/-- Each name has one meaning. -/
theorem one_meaning (p : Place) : ∃ c, Meaning p c ∧ ∀ c', Meaning p c' → c' = c := by
  obtain ⟨t, up⟩ := p
  cases up with
  | nil =>
    refine ⟨_, .alone, fun c' h => ?_⟩
    cases h
    rfl
  | cons f up =>
    by_cases h : f.kind = .fieldAccess ∧ (∀ x ∈ f.right, x.kind ≠ .ident) ∧ t.kind = .ident
    · refine ⟨_, .field h.1 h.2.1 h.2.2, fun c' h' => ?_⟩
      cases h' with
      | field _ _ _ => rfl
      | «variable» hno => exact (hno h).elim
    · refine ⟨_, .variable h, fun c' h' => ?_⟩
      cases h' with
      | field a b c => exact (h ⟨a, b, c⟩).elim
      | «variable» _ => rfl

/-! ## Behind a name -/

theorem leafOfLeft_last (k : Kind) (up : List Frame) {X : Tree} {right : List Tree} {q : Place} (hx : trivia X.kind = false) :
    ∀ (l acc : List Tree), rightmost (⟨k, acc ++ l, right⟩ :: up) X = some q → leafOfLeft k up acc (l ++ [X]) right = some q
  | [], acc, h => by
    rw [List.append_nil] at h
    rw [List.nil_append, leafOfLeft, leafOfLeft, hx]
    exact h
  | c :: l, acc, h => by
    have ih := leafOfLeft_last k up hx l (acc ++ [c]) (by rw [List.append_assoc, List.singleton_append]; exact h)
    rw [List.cons_append, leafOfLeft, ih]

theorem rightmostIn_last (k : Kind) (up : List Frame) {X : Tree} {q : Place} : ∀ (l acc : List Tree),
    rightmost (⟨k, acc ++ l, []⟩ :: up) X = some q → rightmostIn k up acc (l ++ [X]) = some q
  | [], acc, h => by
    rw [List.append_nil] at h
    rw [List.nil_append, rightmostIn, rightmostIn]
    exact h
  | c :: l, acc, h => by
    have ih := rightmostIn_last k up l (acc ++ [c]) (by rw [List.append_assoc, List.singleton_append]; exact h)
    rw [List.cons_append, rightmostIn, ih]

theorem rightmost_around {q : Place} : ∀ (gs up : List Frame) (t : Tree), (∀ g ∈ gs, g.right = []) → rightmost (gs ++ up) t = some q →
    rightmost up (around t gs) = some q
  | [], up, t, _, h => h
  | g :: gs, up, t, hg, h => by
    rw [around]
    refine rightmost_around gs up _ (fun x hx => hg x (List.mem_cons_of_mem _ hx)) ?_
    have hr := hg g (List.mem_cons_self ..)
    have hlast := rightmostIn_last g.kind (gs ++ up) (X := t) (q := q) g.left [] (by
      rw [List.nil_append, ← hr]
      exact h)
    rw [hr, List.append_nil]
    cases hx : g.left ++ [t] with
    | nil => simp at hx
    | cons a b => rw [rightmost, ← hx, hlast]

theorem prevLeaf_left : ∀ (fs up : List Frame) (t : Tree), (∀ f ∈ fs, f.left = []) → prevLeafFrom t (fs ++ up) = prevLeafFrom (around t fs) up
  | [], up, t, _ => rfl
  | f :: fs, up, t, h => by
    have hl := h f (List.mem_cons_self ..)
    rw [List.cons_append, prevLeafFrom, hl, leafOfLeft, around, hl]
    exact prevLeaf_left fs up _ fun x hx => h x (List.mem_cons_of_mem _ hx)

theorem offset_right : ∀ (gs up : List Frame) (t : Tree), (∀ g ∈ gs, g.right = []) →
    offset (gs ++ up) + t.full.length = offset up + (around t gs).full.length
  | [], up, t, _ => rfl
  | g :: gs, up, t, h => by
    have ih := offset_right gs up (.inner g.kind (g.left ++ [t] ++ g.right)) fun x hx => h x (List.mem_cons_of_mem _ hx)
    have hr := h g (List.mem_cons_self ..)
    have hl : (Tree.inner g.kind (g.left ++ [t] ++ g.right)).full.length = (fullOf g.left).length + t.full.length := by
      simp [Tree.full, hr, fullOf_append, fullOf]
    rw [List.cons_append, offset, around, ← ih, hl]
    omega

theorem offset_left : ∀ (fs up : List Frame), (∀ f ∈ fs, f.left = []) → offset (fs ++ up) = offset up
  | [], up, _ => rfl
  | f :: fs, up, h => by
    rw [List.cons_append, offset, h f (List.mem_cons_self ..), offset_left fs up fun x hx => h x (List.mem_cons_of_mem _ hx)]
    rfl

theorem blank_iff (k : Kind) : trivia k = true ↔ Blank k := by
  cases k <;> simp [trivia, Blank]

theorem adjacent_prev {p m : Place} (ha : Adjacent p m) {k : Kind} {t : Text} (hp : p.tree = .leaf k t) (hk : trivia k = false) :
    m.prevLeaf = some p ∧ p.offset + p.len = m.offset := by
  obtain ⟨kk, l, r, up, fs, gs, hg, hf, hpu, hmu, hb⟩ := ha
  have hb' : trivia (around p.tree gs).kind = false := by
    rw [← Bool.not_eq_true, blank_iff]
    exact hb
  constructor
  · unfold Place.prevLeaf
    rw [hmu, prevLeaf_left fs _ m.tree hf, prevLeafFrom]
    have : leafOfLeft kk up [] (l ++ [around p.tree gs]) (around m.tree fs :: r) = some p := by
      refine leafOfLeft_last kk up hb' l [] (rightmost_around gs _ _ hg ?_)
      rw [List.nil_append, ← hpu, hp, rightmost, hk]
      simp only [Bool.false_eq_true, if_false, ← hp]
    rw [this]
  · unfold Place.offset Place.len
    rw [hmu, hpu, offset_right gs _ p.tree hg, offset_left fs _ hf, offset, offset]
    simp only [fullOf_append, List.length_append, fullOf, List.append_nil]
    omega

/-- Right behind a name, with a mark behind it, a request for its definition is about the name. -/
theorem name_before_mark (isIdent : Text → Bool) {root : Tree} {p m : Place} {c : Class} {k : Kind} {t : Text} (hn : Name p) (hm : Meaning p c)
    (ha : Adjacent p m) (hi : In root m) (ht : m.tree = .leaf k t) (hne : t ≠ []) (hk : Mark k) {pos : Nat} (hb : Behind p pos) :
    forDecl isIdent root pos = some c := by
  have hcl := fun cur => classify_name (isIdent := isIdent) hn hm cur
  obtain ⟨k', t', hp, hk', _⟩ := name_leaf hn
  obtain ⟨h1, h2⟩ := adjacent_prev ha (k := k') (t := t') (by rw [hp]) (by rcases hk' with rfl | rfl <;> rfl)
  have hmark : isMark k = true := by
    have : ∀ k ∈ [Kind.leftParen, .rightParen, .leftBracket, .rightBracket, .leftBrace, .rightBrace, .comma, .colon, .semicolon, .dot, .dots, .eq,
      .plus, .minus, .slash, .lt, .gt, .eqEq, .exclEq, .ltEq, .gtEq, .plusEq, .hyphEq, .starEq, .slashEq, .arrow, .hat, .hash, .mathAlignPoint],
      isMark k = true := by decide
    exact this k hk
  obtain ⟨mt, mup⟩ := m
  simp only at ht
  subst ht
  have hpos : pos = offset mup := by
    have e : p.len = p.tree.text.length := by
      rw [hp]
      rfl
    unfold Behind at hb
    rw [← offset_eq] at hb
    unfold Place.offset at h2
    rw [hb, ← e]
    exact h2
  have hon : On ⟨.leaf k t, mup⟩ pos := by
    unfold On
    rw [← offset_eq, hpos]
    exact ⟨Nat.le_refl _, by have := List.length_pos_iff.2 hne; simp only [Tree.text]; omega⟩
  obtain ⟨h3, h4⟩ := on_leaf hi hon
  have hlook : lookedAt root pos = some p := by
    unfold lookedAt
    simp only [h4, h3, Option.map_some]
    rw [if_pos ⟨by rw [hpos]; rfl, hmark⟩, h1]
    simp only [h2, if_true]
  unfold forDecl
  rw [hlook, Option.bind_some, hcl]

/-! ## Blanks and comments -/

theorem lastSolid_append {X : Tree} {bs : List Tree} (hx : trivia X.kind = false) (hb : ∀ b ∈ bs, trivia b.kind = true) : ∀ l : List Tree,
    lastSolid (l ++ X :: bs) = some (l, X, bs)
  | [] => by
    have hn : ∀ bs : List Tree, (∀ b ∈ bs, trivia b.kind = true) → lastSolid bs = none := by
      intro bs
      induction bs with
      | nil => intro _; rfl
      | cons b bs ih =>
        intro h
        rw [lastSolid, ih fun x hx => h x (List.mem_cons_of_mem _ hx), h b (List.mem_cons_self ..)]
        rfl
    rw [List.nil_append, lastSolid, hn bs hb, hx]
    rfl
  | c :: l => by
    rw [List.cons_append, lastSolid, lastSolid_append hx hb l]

theorem coded_inCode {k : Kind} (h : Coded k) : inCode k = true := by
  have : ∀ k ∈ [Kind.code, .codeBlock, .args, .params, .array, .dict, .parenthesized, .destructuring, .letBinding, .binary, .unary, .named, .conditional,
    .whileLoop, .forLoop, .closure, .moduleImport, .importItems, .funcReturn], inCode k = true := by decide
  exact this k h

theorem portion_leaf {root : Tree} {b : Kind} {txt : Text} {up : List Frame} {pos : Nat} (_ : In root ⟨.leaf b txt, up⟩)
    (ho : On ⟨.leaf b txt, up⟩ pos) : portion ⟨.leaf b txt, up⟩ (pos + 1) = txt.take (pos + 1 - (textBefore up).length) := by
  unfold On at ho
  rw [← offset_eq] at ho ⊢
  have e1 : Place.offset ⟨.leaf b txt, up⟩ = offset up := rfl
  have e2 : Place.len ⟨.leaf b txt, up⟩ = txt.length := rfl
  have e3 : (Tree.leaf b txt).text = txt := rfl
  simp only [e3] at ho
  unfold portion
  rw [e1, e2, e3]
  by_cases h : offset up ≤ pos + 1 ∧ pos + 1 < offset up + txt.length
  · rw [if_pos h]
  · rw [if_neg h, List.take_of_length_le (by omega)]

theorem skip_to (isIdent : Text → Bool) {root X : Tree} {k b : Kind} {txt : Text} {l bs r : List Tree} {up : List Frame} {pos : Nat}
    (hi : In root ⟨.leaf b txt, ⟨k, l ++ X :: bs, r⟩ :: up⟩) (ho : On ⟨.leaf b txt, ⟨k, l ++ X :: bs, r⟩ :: up⟩ pos) (hk : Coded k) (hb : Blank b)
    (hx : ¬Blank X.kind) (hbs : ∀ x ∈ bs, Blank x.kind) (hnl : '\n' ∉ txt.take (pos + 1 - (textBefore (⟨k, l ++ X :: bs, r⟩ :: up)).length)) :
    forDecl isIdent root pos = classifyNode isIdent ⟨X, ⟨k, l, bs ++ .leaf b txt :: r⟩ :: up⟩ (pos + 1) := by
  obtain ⟨h1, h2⟩ := on_leaf hi ho
  have hm : isMark b = false := by
    have : ∀ k ∈ [Kind.space, .parbreak, .lineComment, .blockComment, .shebang], isMark k = false := by decide
    exact this b hb
  have hne : b ≠ .error := by
    rintro rfl
    exact absurd hb (by unfold Blank; decide)
  have hskip : canSkip ⟨.leaf b txt, ⟨k, l ++ X :: bs, r⟩ :: up⟩ (pos + 1) = true := by
    have hc := portion_leaf hi ho
    unfold canSkip
    simp only [Tree.kind, (blank_iff b).2 hb, coded_inCode hk, Bool.true_and, hc]
    rw [Bool.not_eq_true', ← Bool.not_eq_true, List.contains_iff_mem]
    exact hnl
  unfold forDecl
  rw [looked_on hi ho hm, Option.bind_some, h2]
  unfold classify
  rw [if_neg (by simp [Tree.kind, hne]), if_pos hskip]
  simp only [Place.prevSibling]
  rw [lastSolid_append (by rw [← Bool.not_eq_true, blank_iff]; exact hx) (fun x hx => (blank_iff _).2 (hbs x hx))]
  rfl

theorem name_not_blank {p : Place} (h : Name p) : ¬Blank p.tree.kind := by
  obtain ⟨t, _, h | h⟩ := h <;> rw [h] <;> simp [Blank, Tree.kind]

theorem node_name {isIdent : Text → Bool} {p : Place} (hn : Name p) {c : Class} (hm : Meaning p c) (cursor : Nat) :
    classifyNode isIdent p cursor = some c := by
  have hc := meaning_classified hn hm
  obtain ⟨k, t, hp, hk, _⟩ := name_leaf hn
  have e : p.tree.kind = k := by rw [hp]; rfl
  rw [classifyNode_plain e (by rcases hk with rfl | rfl <;> rfl), hc]

/-- A blank or a comment in code, behind a name, is about the name, as long as there is no line break between the start of the blank or
comment and the position.
Missing: names that end an operation before a blank. -/
theorem name_before_blank_partial (isIdent : Text → Bool) {root X : Tree} {k b : Kind} {txt : Text} {l bs r : List Tree} {up : List Frame} {pos : Nat} {c : Class}
    (hi : In root ⟨.leaf b txt, ⟨k, l ++ X :: bs, r⟩ :: up⟩) (ho : On ⟨.leaf b txt, ⟨k, l ++ X :: bs, r⟩ :: up⟩ pos) (hk : Coded k) (hb : Blank b)
    (hn : Name ⟨X, ⟨k, l, bs ++ .leaf b txt :: r⟩ :: up⟩) (hm : Meaning ⟨X, ⟨k, l, bs ++ .leaf b txt :: r⟩ :: up⟩ c)
    (hbs : ∀ x ∈ bs, Blank x.kind) (hnl : '\n' ∉ txt.take (pos + 1 - (textBefore (⟨k, l ++ X :: bs, r⟩ :: up)).length)) :
    forDecl isIdent root pos = some c :=
  (skip_to isIdent hi ho hk hb (name_not_blank hn) hbs hnl).trans (node_name hn hm _)

/-- But the lines of comments are about names, too, from lines before: everywhere on a comment that has a line of its own in a block
of code, a request is about the name that stands alone on the line before it. -/
theorem comment_names_line_before (isIdent : Text → Bool) {root : Tree} {name blank txt : Text} {l r : List Tree} {up : List Frame} {pos : Nat}
    (hne : name ≠ []) (hnl : '\n' ∉ txt)
    (hi : In root ⟨.leaf .lineComment txt, ⟨.code, l ++ [.leaf .ident name, .leaf .space ('\n' :: blank)], r⟩ :: up⟩)
    (ho : On ⟨.leaf .lineComment txt, ⟨.code, l ++ [.leaf .ident name, .leaf .space ('\n' :: blank)], r⟩ :: up⟩ pos) :
    ∃ q, forDecl isIdent root pos = some (.ident q) ∧ q.tree = .leaf .ident name ∧
      textBefore (⟨.code, l ++ [.leaf .ident name, .leaf .space ('\n' :: blank)], r⟩ :: up) = textBefore q.up ++ name ++ ('\n' :: blank) := by
  refine ⟨⟨.leaf .ident name, ⟨.code, l, [.leaf .space ('\n' :: blank)] ++ .leaf .lineComment txt :: r⟩ :: up⟩, ?_, rfl, ?_⟩
  · refine name_before_blank_partial isIdent (bs := [.leaf .space ('\n' :: blank)]) hi ho (by unfold Coded; decide) (by unfold Blank; decide)
      ⟨name, hne, .inl rfl⟩ (.variable fun h => nomatch h.1) ?_ fun h => hnl (List.mem_of_mem_take h)
    intro x hx
    rw [List.mem_singleton.1 hx]
    simp [Blank, Tree.kind]
  · simp [textBefore, fullOf_append, fullOf, Tree.full]

/-- Behind a line break in a block of code, a blank is about the block. -/
theorem new_line_is_block (isIdent : Text → Bool) {root : Tree} {txt : Text} {l r l' r' : List Tree} {up : List Frame} {pos : Nat}
    (hi : In root ⟨.leaf .space txt, ⟨.code, l, r⟩ :: ⟨.codeBlock, l', r'⟩ :: up⟩)
    (ho : On ⟨.leaf .space txt, ⟨.code, l, r⟩ :: ⟨.codeBlock, l', r'⟩ :: up⟩ pos)
    (hnl : '\n' ∈ txt.take (pos + 1 - (textBefore (⟨.code, l, r⟩ :: ⟨.codeBlock, l', r'⟩ :: up)).length)) :
    ∃ q, forDecl isIdent root pos = some (.normal q) ∧ q.tree.kind = .codeBlock ∧ q.up = up := by
  obtain ⟨h1, h2⟩ := on_leaf hi ho
  have hskip : canSkip ⟨.leaf .space txt, ⟨.code, l, r⟩ :: ⟨.codeBlock, l', r'⟩ :: up⟩ (pos + 1) = false := by
    have hc := portion_leaf hi ho
    unfold canSkip
    simp only [hc]
    rw [List.contains_iff_mem.2 hnl, Bool.not_true, Bool.and_false]
  refine ⟨⟨.inner .codeBlock (l' ++ .inner .code (l ++ .leaf .space txt :: r) :: r'), up⟩, ?_, rfl, rfl⟩
  unfold forDecl
  rw [looked_on hi ho rfl, Option.bind_some, h2]
  unfold classify
  rw [if_neg (by simp [Tree.kind]), hskip, if_neg Bool.false_ne_true, classifyNode_plain rfl rfl]
  have hf : firstExpr (.leaf .space txt) (⟨.code, l, r⟩ :: ⟨.codeBlock, l', r'⟩ :: up) =
      some ⟨.inner .codeBlock (l' ++ .inner .code (l ++ .leaf .space txt :: r) :: r'), up⟩ := by
    rw [firstExpr_up rfl, firstExpr_up rfl, firstExpr_at rfl]
    have : isFieldBehindDot ⟨.inner .codeBlock (l' ++ .inner .code (l ++ .leaf .space txt :: r) :: r'), up⟩ = false := by
      cases up with
      | nil => rfl
      | cons f up => simp [isFieldBehindDot, isField, Tree.kind]
    rw [this]
    rfl
  simp only [hf, Option.bind_some]
  rw [adjust_access (by decide) (by decide)]
  rfl

/-- Right behind a name that ends an operation, with a blank behind it, there is nothing. -/
theorem end_missed (isIdent : Text → Bool) {root : Tree} {name txt : Text} {cs l r : List Tree} {up : List Frame} {pos : Nat}
    (hi : In root ⟨.leaf .space txt, ⟨.code, l ++ [.inner .binary (cs ++ [.leaf .ident name])], r⟩ :: up⟩) (hne : txt ≠ []) (hnl : '\n' ∉ txt)
    (hb : Behind ⟨.leaf .ident name, ⟨.binary, cs, []⟩ :: ⟨.code, l, .leaf .space txt :: r⟩ :: up⟩ pos) : forDecl isIdent root pos = none := by
  have ho : On ⟨.leaf .space txt, ⟨.code, l ++ [.inner .binary (cs ++ [.leaf .ident name])], r⟩ :: up⟩ pos := by
    unfold Behind at hb
    unfold On
    have := List.length_pos_iff.2 hne
    simp only [textBefore, fullOf_append, fullOf, Tree.full, List.length_append, List.append_nil, Tree.text] at hb ⊢
    omega
  rw [skip_to isIdent (bs := []) hi ho (by unfold Coded; decide) (by unfold Blank; decide) (by simp [Blank, Tree.kind]) nofun
    fun h => hnl (List.mem_of_mem_take h),
    classifyNode_plain rfl rfl]
  simp only []
  rw [firstExpr_at rfl]
  have : isFieldBehindDot ⟨.inner .binary (cs ++ [.leaf .ident name]), ⟨.code, l, [] ++ .leaf .space txt :: r⟩ :: up⟩ = false := by
    simp [isFieldBehindDot, isField]
  rw [this, if_neg Bool.false_ne_true, Option.bind_some, adjust_access (by decide) (by decide)]
  rfl

/-! ## Text, labels and paths -/

theorem leaf_class {isIdent : Text → Bool} {root : Tree} {k : Kind} {t : Text} {up : List Frame} {pos : Nat} (hi : In root ⟨.leaf k t, up⟩)
    (ho : On ⟨.leaf k t, up⟩ pos) (hm : isMark k = false) (ht : trivia k = false) (he : k ≠ .error) :
    forDecl isIdent root pos = classifyNode isIdent ⟨.leaf k t, up⟩ (pos + 1) := by
  obtain ⟨_, h2⟩ := on_leaf hi ho
  have hs : canSkip ⟨.leaf k t, up⟩ (pos + 1) = false := by
    unfold canSkip
    cases up with
    | nil => rfl
    | cons f up => simp [Tree.kind, ht]
  unfold forDecl
  rw [looked_on hi ho hm, Option.bind_some, h2]
  unfold classify
  rw [if_neg (by simp [Tree.kind, he]), hs, if_neg Bool.false_ne_true]

theorem no_field {k : Kind} {t : Text} {up : List Frame} (h : k ≠ .ident) :
    isField ⟨.leaf k t, up⟩ = false ∧ isFieldBehindDot ⟨.leaf k t, up⟩ = false := by
  cases up with
  | nil => exact ⟨rfl, rfl⟩
  | cons f up => simp [isFieldBehindDot, isField, Tree.kind, h]

theorem leaf_chain {k : Kind} {t : Text} {up : List Frame} (h : k ≠ .ident) (he : isExpr k = true) :
    ((firstExpr (.leaf k t) up).bind fun e => (adjust e).bind classOf) = classOf ⟨.leaf k t, up⟩ := by
  rw [firstExpr_at (t := .leaf k t) he, (no_field h).2, if_neg Bool.false_ne_true, Option.bind_some, adjust_leaf, (no_field h).1, if_neg Bool.false_ne_true,
    Option.bind_some]

/-- Text of the document is about nothing, if it does not begin with a dot. -/
theorem text_is_nothing (isIdent : Text → Bool) {root : Tree} {t : Text} {l r : List Tree} {up : List Frame} {pos : Nat}
    (hi : In root ⟨.leaf .text t, ⟨.markup, l, r⟩ :: up⟩) (ho : On ⟨.leaf .text t, ⟨.markup, l, r⟩ :: up⟩ pos) (hd : t.head? ≠ some '.') :
    forDecl isIdent root pos = none := by
  rw [leaf_class hi ho rfl rfl (by decide)]
  have hmode : modeAt (.leaf .text t) (⟨.markup, l, r⟩ :: up) ≠ .math := by
    have h1 : kindMode (Tree.leaf .text t).kind = none := rfl
    have h2 : ∀ cs, modeAt (.inner .markup cs) up = .markup := by
      intro cs
      cases up <;> rfl
    unfold modeAt
    rw [h1]
    simp only []
    split
    · simp
    · rw [h2]
      simp
  unfold classifyNode
  simp only [Tree.kind, Tree.text, hd, and_false, or_false, false_or, reduceCtorEq, if_false, hmode, true_or, false_and, true_and]
  exact leaf_chain (by decide) rfl

/-- The path of an import or of an include is about the path, everywhere on it, also on its quotes. -/
theorem path_found (isIdent : Text → Bool) {root : Tree} {k : Kind} {t : Text} {l r : List Tree} {up : List Frame} {pos : Nat}
    (hi : In root ⟨.leaf .str t, ⟨k, l, r⟩ :: up⟩) (ho : On ⟨.leaf .str t, ⟨k, l, r⟩ :: up⟩ pos) :
    (k = .moduleImport → forDecl isIdent root pos = some (.importPath ⟨.leaf .str t, ⟨k, l, r⟩ :: up⟩)) ∧
    (k = .moduleInclude → forDecl isIdent root pos = some (.includePath ⟨.leaf .str t, ⟨k, l, r⟩ :: up⟩)) ∧
    (k ≠ .moduleImport → k ≠ .moduleInclude → forDecl isIdent root pos = some (.normal ⟨.leaf .str t, ⟨k, l, r⟩ :: up⟩)) := by
  rw [leaf_class hi ho rfl rfl (by decide), classifyNode_plain rfl rfl, leaf_chain (by decide) rfl]
  refine ⟨?_, ?_, ?_⟩
  · rintro rfl
    rfl
  · rintro rfl
    rfl
  · intro h1 h2
    simp [classOf, Tree.kind, h1, h2]

/-- A label is about the label, everywhere on it. -/
theorem label_found (isIdent : Text → Bool) {root : Tree} {t : Text} {up : List Frame} {pos : Nat} (hi : In root ⟨.leaf .label t, up⟩)
    (ho : On ⟨.leaf .label t, up⟩ pos) : forDecl isIdent root pos = some (.label ⟨.leaf .label t, up⟩ false) := by
  rw [leaf_class hi ho rfl rfl (by decide), classifyNode_plain rfl rfl, leaf_chain (by decide) rfl]
  rfl

/-- A reference is about the reference, everywhere on it, whether it has a supplement or not. -/
theorem ref_found (isIdent : Text → Bool) {root : Tree} {t : Text} {l r : List Tree} {up : List Frame} {pos : Nat}
    (hi : In root ⟨.leaf .refMarker t, ⟨.ref, l, r⟩ :: up⟩) (ho : On ⟨.leaf .refMarker t, ⟨.ref, l, r⟩ :: up⟩ pos) :
    forDecl isIdent root pos = some (.ref ⟨.inner .ref (l ++ [.leaf .refMarker t] ++ r), up⟩) := by
  rw [leaf_class hi ho rfl rfl (by decide), classifyNode_plain rfl rfl]
  simp only []
  rw [firstExpr_up rfl, firstExpr_at rfl]
  have : isFieldBehindDot ⟨.inner .ref (l ++ .leaf .refMarker t :: r), up⟩ = false := by
    cases up with
    | nil => rfl
    | cons f up => simp [isFieldBehindDot, isField, Tree.kind]
  simp only []
  rw [this, if_neg Bool.false_ne_true, Option.bind_some, adjust_access (by simp) (by simp), List.append_assoc, List.singleton_append]
  rfl

/-! ## Concrete cases -/

/-- `#{` name, line break, `// note`, `b.len(c)`, ` + d `, `}` in a document. -/
def file : Tree :=
  .inner .markup [.leaf .text "Hi".toList, .leaf .hash ['#'],
    .inner .codeBlock [.leaf .leftBrace ['{'],
      .inner .code [.leaf .ident "abc".toList, .leaf .space ['\n'], .leaf .lineComment "// n".toList, .leaf .space ['\n'],
        .inner .binary [.inner .funcCall [.inner .fieldAccess [.leaf .ident ['b'], .leaf .dot ['.'], .leaf .ident "len".toList],
          .inner .args [.leaf .leftParen ['('], .leaf .ident ['c'], .leaf .rightParen [')']]],
          .leaf .space [' '], .leaf .plus ['+'], .leaf .space [' '], .leaf .ident ['d']], .leaf .space [' ']],
      .leaf .rightBrace ['}']]]

def afterCode : List Tree :=
  [.leaf .space ['\n'],
        .inner .binary [.inner .funcCall [.inner .fieldAccess [.leaf .ident ['b'], .leaf .dot ['.'], .leaf .ident "len".toList],
          .inner .args [.leaf .leftParen ['('], .leaf .ident ['c'], .leaf .rightParen [')']]],
          .leaf .space [' '], .leaf .plus ['+'], .leaf .space [' '], .leaf .ident ['d']], .leaf .space [' ']]

/-- The way out of the block. -/
def out : List Frame :=
  [⟨.codeBlock, [.leaf .leftBrace ['{']], [.leaf .rightBrace ['}']]⟩, ⟨.markup, [.leaf .text "Hi".toList, .leaf .hash ['#']], []⟩]

/-- From the call to the file. -/
def callUp : List Frame :=
  ⟨.binary, [], [.leaf .space [' '], .leaf .plus ['+'], .leaf .space [' '], .leaf .ident ['d']]⟩ ::
    ⟨.code, [.leaf .ident "abc".toList, .leaf .space ['\n'], .leaf .lineComment "// n".toList, .leaf .space ['\n']], [.leaf .space [' ']]⟩ :: out

def argsTree : Tree := .inner .args [.leaf .leftParen ['('], .leaf .ident ['c'], .leaf .rightParen [')']]

/-- `len`. -/
def lenAt : Place :=
  ⟨.leaf .ident "len".toList, ⟨.fieldAccess, [.leaf .ident ['b'], .leaf .dot ['.']], []⟩ :: ⟨.funcCall, [], [argsTree]⟩ :: callUp⟩

/-- The parenthesis behind `len`. -/
def parenAt : Place :=
  ⟨.leaf .leftParen ['('], ⟨.args, [], [.leaf .ident ['c'], .leaf .rightParen [')']]⟩ ::
    ⟨.funcCall, [.inner .fieldAccess [.leaf .ident ['b'], .leaf .dot ['.'], .leaf .ident "len".toList]], []⟩ :: callUp⟩

/-- On `len`, and right behind it, a request is about the access of the field. -/
example (isIdent : Text → Bool) : ∃ c, forDecl isIdent file 15 = some (.fieldAccess c) ∧ forHover isIdent file 15 = some (.fieldAccess c) ∧
    forDecl isIdent file 18 = some (.fieldAccess c) := by
  have hn : Name lenAt := ⟨_, by simp, .inl rfl⟩
  have hm := Meaning.field (t := .leaf .ident "len".toList) (f := ⟨.fieldAccess, [.leaf .ident ['b'], .leaf .dot ['.']], []⟩)
    (up := ⟨.funcCall, [], [argsTree]⟩ :: callUp) rfl nofun rfl
  have hi : In file lenAt := rfl
  have hj : In file parenAt := rfl
  have h := name_found isIdent hn hi (pos := 15) (by unfold On; decide) hm
  refine ⟨_, h.1, h.2, ?_⟩
  exact name_before_mark isIdent hn hm ⟨.funcCall, [], [], callUp, [⟨.args, [], [.leaf .ident ['c'], .leaf .rightParen [')']]⟩],
    [⟨.fieldAccess, [.leaf .ident ['b'], .leaf .dot ['.']], []⟩], by simp, by simp, rfl, rfl, by unfold Blank; decide⟩ hj rfl (by simp)
    (by unfold Mark; decide) (by unfold Behind; decide)

/-- On the comment, a request is about `abc` in the line before. -/
example (isIdent : Text → Bool) : ∃ q, forDecl isIdent file 10 = some (.ident q) ∧ q.tree = .leaf .ident "abc".toList := by
  obtain ⟨q, h1, h2, _⟩ := comment_names_line_before isIdent (root := file) (name := "abc".toList) (blank := []) (txt := "// n".toList) (l := [])
    (r := afterCode) (up := out) (pos := 10) (by simp) (by decide) rfl (by unfold On; decide)
  exact ⟨q, h1, h2⟩

/-- Right behind `d`, there is nothing; on the line break behind the comment, the block. -/
example (isIdent : Text → Bool) : forDecl isIdent file 25 = none ∧ ∃ q, forDecl isIdent file 12 = some (.normal q) ∧ q.tree.kind = .codeBlock := by
  refine ⟨end_missed isIdent (root := file) (name := ['d']) (txt := [' '])
    (cs := [.inner .funcCall [.inner .fieldAccess [.leaf .ident ['b'], .leaf .dot ['.'], .leaf .ident "len".toList], argsTree],
          .leaf .space [' '], .leaf .plus ['+'], .leaf .space [' ']])
    (l := [.leaf .ident "abc".toList, .leaf .space ['\n'], .leaf .lineComment "// n".toList, .leaf .space ['\n']]) (r := []) (up := out)
    rfl (by simp) (by decide) (by unfold Behind; decide), ?_⟩
  obtain ⟨q, h1, h2, _⟩ := new_line_is_block isIdent (root := file) (txt := ['\n'])
    (l := [.leaf .ident "abc".toList, .leaf .space ['\n'], .leaf .lineComment "// n".toList]) (r := afterCode.drop 1)
    (l' := [.leaf .leftBrace ['{']]) (r' := [.leaf .rightBrace ['}']]) (up := out.drop 1) (pos := 12) rfl (by unfold On; decide) (by decide)
  exact ⟨q, h1, h2⟩

/-- `abc` and the text. -/
example (isIdent : Text → Bool) : forDecl isIdent file 0 = none ∧ ∃ q, forDecl isIdent file 6 = some (.ident q) ∧ q.tree.text = "abc".toList :=
  ⟨text_is_nothing isIdent (root := file) (t := "Hi".toList) (l := []) (r := _) (up := []) rfl (by unfold On; decide) (by decide),
   _, (name_found isIdent (root := file) (p := ⟨.leaf .ident "abc".toList, ⟨.code, [], .leaf .space ['\n'] :: .leaf .lineComment "// n".toList :: afterCode⟩ :: out⟩)
     (pos := 6) ⟨_, by simp, .inl rfl⟩ rfl (by unfold On; decide) (.variable fun h => nomatch h.1)).1, rfl⟩

end Tinymist.Pointer
