import Verif.Lemmas.CodeAction
/-!
# C81: code actions
-/
namespace Tinymist.CodeAction
open Position

/-! ## Which nodes are looked at -/

def First (k : Kind) (L : List (Text × Node × Text)) (x : Text × Node × Text) : Prop :=
  ∃ l r, L = l ++ x :: r ∧ x.2.1.kind = k ∧ ∀ y ∈ l, y.2.1.kind ≠ k

theorem first_nil (k : Kind) (x) : ¬ First k [] x := by
  rintro ⟨l, r, h, _⟩; simp at h

theorem first_cons (k : Kind) (y) (L) (x) :
    First k (y :: L) x ↔ (y.2.1.kind = k ∧ x = y) ∨ (y.2.1.kind ≠ k ∧ First k L x) := by
  constructor
  · rintro ⟨l, r, h, hk, hl⟩
    cases l with
    | nil => simp only [List.nil_append, List.cons.injEq] at h; exact .inl ⟨h.1 ▸ hk, h.1.symm⟩
    | cons z l =>
      simp only [List.cons_append, List.cons.injEq] at h
      obtain ⟨rfl, h⟩ := h
      exact .inr ⟨hl y (List.mem_cons_self ..), l, r, h, hk, fun z hz => hl z (List.mem_cons_of_mem _ hz)⟩
  · rintro (⟨hk, rfl⟩ | ⟨hk, l, r, h, hx, hl⟩)
    · exact ⟨[], L, rfl, hk, by simp⟩
    · refine ⟨y :: l, r, by rw [h]; rfl, hx, fun z hz => ?_⟩
      rcases List.mem_cons.mp hz with rfl | hz
      · exact hk
      · exact hl z hz

theorem innermost_iff (root : Node) (b : Nat) (k : Kind) (x) :
    Innermost root b k x ↔ First k ((occurrences [] [] root).filter (Around b)).reverse x := by
  constructor
  · rintro ⟨o, i, h, hk, hi⟩
    exact ⟨i.reverse, o.reverse, by rw [h]; simp, hk, fun y hy => hi y (List.mem_reverse.mp hy)⟩
  · rintro ⟨l, r, h, hk, hl⟩
    exact ⟨r.reverse, l.reverse, by have := congrArg List.reverse h; simpa using this, hk,
      fun y hy => hl y (List.mem_reverse.mp hy)⟩

theorem innermost_mem {root : Node} {b : Nat} {k : Kind} {x} (h : Innermost root b k x) :
    x ∈ occurrences [] [] root := by
  obtain ⟨o, i, h, _⟩ := h
  have : x ∈ (occurrences [] [] root).filter (Around b) := by rw [h]; simp
  exact (List.mem_filter.mp this).1

theorem occ_doc {root : Node} {x} (h : x ∈ occurrences [] [] root) : text root = x.1 ++ text x.2.1 ++ x.2.2 := by
  obtain ⟨a, c, h1, h2, h3⟩ := occ_bounds [] [] root x h
  rw [h1, h3, h2]; simp

theorem climb_iff (punct : Char → Bool) (doc : Text) (L : List (Text × Node × Text))
    (hdoc : ∀ x ∈ L, doc = x.1 ++ text x.2.1 ++ x.2.2) (h e : Bool) (a : Action) :
    a ∈ climb punct doc h e (L.map located) ↔
      (h = false ∧ ∃ x, First .heading L x ∧ a ∈ headingActions (len8 x.1) x.2.1) ∨
      (e = false ∧ ∃ x, First .equation L x ∧ a ∈ equationActions punct x.2.2 (len8 x.1) x.2.1) := by
  induction L generalizing h e with
  | nil => simp [climb, first_nil]
  | cons y L ih =>
    have ih := ih (fun x hx => hdoc x (List.mem_cons_of_mem _ hx))
    have hs : ((splitAtByte doc (len8 y.1 + len8 (text y.2.1))).map (·.2)).getD [] = y.2.2 := by
      rw [hdoc y (List.mem_cons_self ..), ← len8_append, splitAtByte_append]; rfl
    rw [List.map_cons, show located y = (len8 y.1, y.2.1) from rfl, climb]
    by_cases hk : y.2.1.kind = .heading
    · have hne : y.2.1.kind ≠ .equation := by rw [hk]; decide
      cases h with
      | false =>
        rw [if_pos ⟨hk, rfl⟩, List.mem_append, ih]
        simp [first_cons, hk]
      | true =>
        rw [if_neg (by simp), if_neg (by simp [hne]), ih]
        simp [first_cons, hk]
    · by_cases hq : y.2.1.kind = .equation
      · cases e with
        | false =>
          rw [if_neg (by simp [hk]), if_pos ⟨hq, rfl⟩, List.mem_append, ih, hs]
          simp [first_cons, hq, or_comm]
        | true =>
          rw [if_neg (by simp [hk]), if_neg (by simp), ih]
          simp [first_cons, hq]
      · rw [if_neg (by simp [hk]), if_neg (by simp [hq]), ih]
        simp [first_cons, hk, hq]

/-! ## Headings -/

theorem len8_replicate (d : Nat) : len8 (List.replicate d '=') = d := by
  induction d with
  | zero => rfl
  | succ d ih => rw [List.replicate_succ, len8_cons, ih]; simp [Char.utf8Size]; omega

theorem heading_iff {root : Node} (hr : Parsed root) {x} (hx : x ∈ occurrences [] [] root) (a : Action) :
    a ∈ headingActions (len8 x.1) x.2.1 ↔ ∃ front d rest, IsHeading x.2.1 front d rest ∧
      (2 ≤ d ∧ a = ⟨.decrease, editsOf [] [(x.1 ++ front, List.replicate d '=', List.replicate (d - 1) '=')]⟩ ∨
        a = ⟨.increase, editsOf [] [(x.1 ++ front, List.replicate d '=', List.replicate (d + 1) '=')]⟩) := by
  have hf := find_child x.1 x.2.1.children .headingMarker
  constructor
  · intro h
    unfold headingActions at h
    split at h
    · cases h
    · rename_i moff m hm
      obtain ⟨l, m', r, e, hk, hl, ho⟩ := hf.2 _ hm
      simp only [Prod.mk.injEq] at ho
      obtain ⟨rfl, rfl⟩ := ho
      obtain ⟨d, _, hd⟩ := hr.marker _ (occ_child [] [] root x hx l m r e) hk
      simp only at hd
      refine ⟨textAll l, d, textAll r, ⟨l, m, r, e, hk, hl, hd, rfl, rfl⟩, ?_⟩
      rw [hd, len8_replicate] at h
      simp only [List.mem_append, List.mem_singleton] at h
      have hlen : len8 (x.1 ++ textAll l ++ List.replicate d '=') = len8 (x.1 ++ textAll l) + d := by
        rw [len8_append, len8_replicate]
      simp only [editsOf, List.nil_append, hlen]
      rcases h with h | h
      · split at h
        · rename_i h2
          simp only [List.mem_singleton] at h
          exact .inl ⟨h2, h⟩
        · cases h
      · exact .inr h
  · rintro ⟨front, d, rest, ⟨l, m, r, e, hk, hl, hd, rfl, rfl⟩, h⟩
    have hlen : len8 (x.1 ++ textAll l ++ List.replicate d '=') = len8 (x.1 ++ textAll l) + d := by
      rw [len8_append, len8_replicate]
    simp only [headingActions, hf.1 l m r e hk hl, hd, len8_replicate]
    simp only [editsOf, List.nil_append, hlen] at h
    rw [List.mem_append]
    rcases h with ⟨h2, rfl⟩ | rfl
    · rw [if_pos (by omega)]; exact .inl (List.mem_singleton.mpr rfl)
    · exact .inr (List.mem_singleton.mpr rfl)

theorem heading_unique {n : Node} {f f' r r' : Text} {d d' : Nat} (h : IsHeading n f d r) (h' : IsHeading n f' d' r') :
    d = d' ∧ f = f' ∧ r = r' := by
  obtain ⟨l, m, r, e, hk, hl, hd, rfl, rfl⟩ := h
  obtain ⟨l', m', r', e', hk', hl', hd', rfl, rfl⟩ := h'
  have h1 := (find_child [] n.children .headingMarker).1 l m r e hk hl
  have h2 := (find_child [] n.children .headingMarker).1 l' m' r' e' hk' hl'
  have key : ∀ (l l' : List Node) (m m' : Node) (r r' : List Node), l ++ m :: r = l' ++ m' :: r' → m.kind = .headingMarker →
      m'.kind = .headingMarker → (∀ c ∈ l, c.kind ≠ .headingMarker) → (∀ c ∈ l', c.kind ≠ .headingMarker) →
      l = l' ∧ m = m' ∧ r = r' := by
    intro l
    induction l with
    | nil =>
      intro l' m m' r r' e hm _ _ hl'
      cases l' with
      | nil => simpa using e
      | cons c l' =>
        simp only [List.nil_append, List.cons_append, List.cons.injEq] at e
        exact (hl' c (List.mem_cons_self ..) (e.1 ▸ hm)).elim
    | cons c l ih =>
      intro l' m m' r r' e hm hm' hl hl'
      cases l' with
      | nil =>
        simp only [List.nil_append, List.cons_append, List.cons.injEq] at e
        exact (hl c (List.mem_cons_self ..) (e.1 ▸ hm')).elim
      | cons c' l' =>
        simp only [List.cons_append, List.cons.injEq] at e
        obtain ⟨h1, h2, h3⟩ := ih l' m m' r r' e.2 hm hm' (fun c hc => hl c (List.mem_cons_of_mem _ hc))
          (fun c hc => hl' c (List.mem_cons_of_mem _ hc))
        exact ⟨by rw [e.1, h1], h2, h3⟩
  obtain ⟨rfl, rfl, rfl⟩ := key l l' m m' r r' (e ▸ e') hk hk' hl hl'
  exact ⟨by have := congrArg List.length (hd ▸ hd'); simpa using this, rfl, rfl⟩

/-! ## Equations -/

theorem asciiPunct_iff (c : Char) : asciiPunct c = true ↔ AsciiSign c := by
  constructor
  · intro h
    have hc : c = Char.ofNat c.toNat := (Char.ofNat_toNat c).symm
    have hn : (33 ≤ c.toNat ∧ c.toNat ≤ 47) ∨ (58 ≤ c.toNat ∧ c.toNat ≤ 64) ∨ (91 ≤ c.toNat ∧ c.toNat ≤ 96) ∨
        (123 ≤ c.toNat ∧ c.toNat ≤ 126) := by simpa [asciiPunct, or_assoc] using h
    rw [hc]
    generalize c.toNat = n at hn
    have hb : n < 127 := by omega
    have hall : ∀ n : Fin 127, (33 ≤ n.val ∧ n.val ≤ 47) ∨ (58 ≤ n.val ∧ n.val ≤ 64) ∨ (91 ≤ n.val ∧ n.val ≤ 96) ∨
        (123 ≤ n.val ∧ n.val ≤ 126) → AsciiSign (Char.ofNat n.val) := by unfold AsciiSign; decide +kernel
    exact hall ⟨n, hb⟩ hn
  · intro h
    have hall : ∀ c ∈ ['!', '"', '#', '$', '%', '&', '\'', '(', ')', '*', '+', ',', '-', '.', '/', ':', ';', '<', '=', '>', '?',
      '@', '[', '\\', ']', '^', '_', '`', '{', '|', '}', '~'], asciiPunct c = true := by decide +kernel
    exact hall c h

theorem asciiPunct_false (c : Char) : asciiPunct c = false ↔ ¬ AsciiSign c := by
  rw [← asciiPunct_iff]; simp

theorem markAfter_some (punct : Char → Bool) (after : Text) (c : Char) :
    markAfter punct after = some c ↔ ∃ rest, Takes punct after c rest := by
  unfold Takes
  simp only [← asciiPunct_iff]
  cases after with
  | nil => simp [markAfter]
  | cons x r =>
    have hr : (∃ rest, x :: r = c :: rest ∧ (asciiPunct c = true ∧ (∀ d, rest.head? = some d → ¬ asciiPunct d = true) ∨
        ¬ asciiPunct c = true ∧ punct c = true)) ↔ x = c ∧ (asciiPunct x = true ∧
          (∀ d, r.head? = some d → ¬ asciiPunct d = true) ∨ ¬ asciiPunct x = true ∧ punct x = true) := by
      constructor
      · rintro ⟨rest, e, h⟩
        simp only [List.cons.injEq] at e
        obtain ⟨rfl, rfl⟩ := e
        exact ⟨rfl, h⟩
      · rintro ⟨rfl, h⟩
        exact ⟨r, rfl, h⟩
    rw [hr]
    cases r with
    | nil =>
      simp only [markAfter]
      cases h1 : asciiPunct x <;> cases h2 : punct x <;> simp
    | cons d r =>
      simp only [markAfter]
      cases h1 : asciiPunct x <;> cases h2 : punct x <;> cases h3 : asciiPunct d <;> simp [h3]

theorem takes_unique {punct : Char → Bool} {after : Text} {c c' : Char} {r r' : Text} (h : Takes punct after c r)
    (h' : Takes punct after c' r') : c = c' ∧ r = r' := by
  have := h.1.symm.trans h'.1
  simpa using this

theorem isBlock_iff {n : Node} {front body back : List Node} (h : IsEquation n front body back) :
    isBlock n.children = true ↔ Block front back := by
  obtain ⟨d1, d2, e, h1, h2, _, _, ⟨m, rfl, hm⟩, _⟩ := h
  have e1 : n.children[1]? = (front ++ [m])[0]? := by
    rw [e]; cases front <;> simp
  have e2 : n.children.reverse[1]? = (back.reverse ++ [m])[0]? := by
    rw [e]
    simp only [List.reverse_append, List.reverse_cons, List.reverse_nil, List.nil_append, List.singleton_append,
      List.cons_append, List.getElem?_cons_succ]
    cases hb : back.reverse <;> simp
  simp only [isBlock, Bool.and_eq_true, beq_iff_eq, e1, e2, Block]
  have hms : m.kind ≠ .space := by rw [hm]; decide
  have k1 : (front ++ [m])[0]?.map Node.kind = some .space ↔ ∃ s r, front = s :: r ∧ s.kind = .space := by
    cases front with
    | nil => simp [hms]
    | cons a l => simp
  have k2 : (back.reverse ++ [m])[0]?.map Node.kind = some .space ↔ ∃ s r, back = r ++ [s] ∧ s.kind = .space := by
    constructor
    · intro h
      cases hb : back.reverse with
      | nil => rw [hb] at h; simp [hms] at h
      | cons a l =>
        rw [hb] at h
        refine ⟨a, l.reverse, by have := congrArg List.reverse hb; simpa using this, by simpa using h⟩
    · rintro ⟨s, r, rfl, hs⟩
      simp [hs]
  rw [k1, k2]

theorem equation_unique {n : Node} {f b k f' b' k' : List Node} (h : IsEquation n f b k) (h' : IsEquation n f' b' k') :
    f = f' ∧ b = b' ∧ k = k' := by
  obtain ⟨d1, d2, e, h1, h2, _, _, ⟨m, rfl, hm⟩, hf⟩ := h
  obtain ⟨d1', d2', e', h1', h2', _, _, ⟨m', rfl, hm'⟩, hf'⟩ := h'
  rw [e] at e'
  simp only [List.cons_append, List.append_assoc, List.cons.injEq] at e'
  have key : ∀ (l l' : List Node) (m m' : Node) (r r' : List Node), l ++ m :: r = l' ++ m' :: r' → m.kind = .math →
      m'.kind = .math → (∀ c ∈ l, c.kind ≠ .math) → (∀ c ∈ l', c.kind ≠ .math) → l = l' ∧ m = m' ∧ r = r' := by
    intro l
    induction l with
    | nil =>
      intro l' m m' r r' e hm _ _ hl'
      cases l' with
      | nil => simpa using e
      | cons c l' =>
        simp only [List.nil_append, List.cons_append, List.cons.injEq] at e
        exact (hl' c (List.mem_cons_self ..) (e.1 ▸ hm)).elim
    | cons c l ih =>
      intro l' m m' r r' e hm hm' hl hl'
      cases l' with
      | nil =>
        simp only [List.nil_append, List.cons_append, List.cons.injEq] at e
        exact (hl c (List.mem_cons_self ..) (e.1 ▸ hm')).elim
      | cons c' l' =>
        simp only [List.cons_append, List.cons.injEq] at e
        obtain ⟨h1, h2, h3⟩ := ih l' m m' r r' e.2 hm hm' (fun c hc => hl c (List.mem_cons_of_mem _ hc))
          (fun c hc => hl' c (List.mem_cons_of_mem _ hc))
        exact ⟨by rw [e.1, h1], h2, h3⟩
  obtain ⟨rfl, rfl, hr⟩ := key f f' m m' (k ++ [d2]) (k' ++ [d2']) (by simpa using e'.2) hm hm' hf hf'
  have := List.append_inj' hr rfl
  exact ⟨rfl, rfl, this.1⟩

/-- The edits of a conversion, by pieces. -/
def pieces (pre front body back : Text) (mark : Option Char) (new : Text) : List (Text × Text × Text) :=
  if new = [] then [(pre ++ ['$'], front, []), (body, back, [])]
  else match mark with
    | none => [(pre ++ ['$'], front, new), (body, back, new)]
    | some c => [(pre ++ ['$'], front, new), (body, back, c :: new), (['$'], [c], [])]

theorem rewrite_pieces (pre front body back : Text) (mark : Option Char) (new : Text) :
    rewrite (len8 (pre ++ ['$'])) (len8 (pre ++ ['$'] ++ front)) (len8 (pre ++ ['$'] ++ front ++ body))
      (len8 (pre ++ ['$'] ++ front ++ body ++ back)) (len8 (pre ++ ['$'] ++ front ++ body ++ back ++ ['$'])) mark new =
    editsOf [] (pieces pre front body back mark new) := by
  cases new with
  | nil => cases mark <;> simp [rewrite, pieces, editsOf]
  | cons c new =>
    cases mark with
    | none => simp [rewrite, pieces, editsOf]
    | some d =>
      have : ∀ a : Text, len8 (a ++ ['$']) + d.utf8Size = len8 (a ++ ['$', d]) := by
        intro a
        rw [show a ++ ['$', d] = (a ++ ['$']) ++ [d] by simp, len8_append (a ++ ['$']), len8_cons d, len8_nil]
        omega
      simp only [rewrite, pieces, editsOf, List.nil_append, if_neg (List.cons_ne_nil c new)]
      rw [this]
      simp

theorem equation_iff {root : Node} (hr : Parsed root) (punct : Char → Bool) {x} (hx : x ∈ occurrences [] [] root)
    (a : Action) :
    a ∈ equationActions punct x.2.2 (len8 x.1) x.2.1 ↔ ∃ front body back, IsEquation x.2.1 front body back ∧
      (Block front back ∧ a = ⟨.toInline, editsOf [] (pieces x.1 (textAll front) (textAll body) (textAll back)
          (markAfter punct x.2.2) [])⟩ ∨
        ¬ Block front back ∧ a = ⟨.toBlock, editsOf [] (pieces x.1 (textAll front) (textAll body) (textAll back)
          (markAfter punct x.2.2) [' '])⟩ ∨
        a = ⟨.toLines, editsOf [] (pieces x.1 (textAll front) (textAll body) (textAll back)
          (markAfter punct x.2.2) ['\n'])⟩) := by
  have hf := find_child x.1 x.2.1.children .math
  have main : ∀ front body back, IsEquation x.2.1 front body back → (a ∈ equationActions punct x.2.2 (len8 x.1) x.2.1 ↔
      (Block front back ∧ a = ⟨.toInline, editsOf [] (pieces x.1 (textAll front) (textAll body) (textAll back)
          (markAfter punct x.2.2) [])⟩ ∨
        ¬ Block front back ∧ a = ⟨.toBlock, editsOf [] (pieces x.1 (textAll front) (textAll body) (textAll back)
          (markAfter punct x.2.2) [' '])⟩ ∨
        a = ⟨.toLines, editsOf [] (pieces x.1 (textAll front) (textAll body) (textAll back)
          (markAfter punct x.2.2) ['\n'])⟩)) := by
    intro front body back h
    have hb := isBlock_iff h
    obtain ⟨d1, d2, e, h1, h2, t1, t2, ⟨m, rfl, hm⟩, hfr⟩ := h
    have hne : ∀ c ∈ d1 :: front, c.kind ≠ .math := by
      intro c hc
      rcases List.mem_cons.mp hc with rfl | hc
      · rw [h1]; decide
      · exact hfr c hc
    have ef := hf.1 (d1 :: front) m (back ++ [d2]) (by rw [e]; simp) hm hne
    have eh : (childrenAt (len8 x.1) x.2.1.children).head? = some (len8 x.1, d1) := by rw [e]; simp [childrenAt]
    have et : (childrenAt (len8 x.1) x.2.1.children).tail.getLast? =
        some (len8 (x.1 ++ ['$'] ++ textAll front ++ text m ++ textAll back), d2) := by
      rw [e]
      rw [List.append_assoc (d1 :: front), List.append_assoc (d1 :: front), List.cons_append, childrenAt, List.tail_cons,
        t1, ← len8_append]
      rw [← List.append_assoc, ← List.append_assoc, childrenAt_append]
      simp [childrenAt, textAll_append, textAll]
    have en : len8 x.1 + len8 (text x.2.1) =
        len8 (x.1 ++ ['$'] ++ textAll front ++ text m ++ textAll back ++ ['$']) := by
      have : text x.2.1 = textAll x.2.1.children := by
        cases hn : x.2.1 with
        | leaf k t => rw [hn] at e; simp [Node.children] at e
        | inner k cs => rw [text]; rfl
      rw [this, e, ← len8_append]
      simp [textAll_append, textAll, t1, t2]
    simp only [equationActions, ef, eh, et]
    rw [if_pos ⟨h1, h2⟩, en]
    have e1 : len8 x.1 + len8 (text d1) = len8 (x.1 ++ ['$']) := by rw [t1, len8_append]
    have e2 : len8 (x.1 ++ textAll (d1 :: front)) = len8 (x.1 ++ ['$'] ++ textAll front) := by simp [textAll, t1]
    have e3 : len8 (x.1 ++ textAll (d1 :: front)) + len8 (text m) = len8 (x.1 ++ ['$'] ++ textAll front ++ text m) := by
      rw [e2, ← len8_append]
    simp only [e1, e3]
    simp only [e2]
    simp only [rewrite_pieces]
    have em : textAll [m] = text m := by simp [textAll]
    rw [em]
    by_cases hB : Block front back
    · rw [if_pos (hb.mpr hB)]
      simp [hB]
    · rw [if_neg (fun hc => hB (hb.mp hc))]
      simp [hB]
  constructor
  · intro h
    have h0 := h
    unfold equationActions at h
    split at h
    · cases h
    · rename_i boff m hm
      obtain ⟨l, m', r, e, hk, hl, ho⟩ := hf.2 _ hm
      split at h
      · rename_i off1 d1 off2 d2 e1 e2
        split at h
        · rename_i hd
          have hc1 : x.2.1.children.head? = some d1 := by
            rw [← childrenAt_kinds (len8 x.1) x.2.1.children, List.head?_map, e1]; rfl
          have hc2 : x.2.1.children.tail.getLast? = some d2 := by
            rw [← childrenAt_kinds (len8 x.1) x.2.1.children, ← List.map_tail, List.getLast?_map, e2]; rfl
          cases l with
          | nil =>
            rw [e] at hc1
            simp only [List.nil_append, List.head?_cons, Option.some.injEq] at hc1
            rw [← hc1, hk] at hd
            exact absurd hd.1 (by decide)
          | cons d l =>
            rw [e] at hc1 hc2
            simp only [List.cons_append, List.head?_cons, Option.some.injEq] at hc1
            subst hc1
            simp only [List.cons_append, List.tail_cons] at hc2
            rcases List.eq_nil_or_concat r with rfl | ⟨r', d2', rfl⟩
            · simp only [List.getLast?_append, List.getLast?_singleton, Option.or_some, Option.some.injEq] at hc2
              simp at hc2
              rw [← hc2, hk] at hd
              exact absurd hd.2 (by decide)
            · have : d2' = d2 := by
                rw [List.concat_eq_append] at hc2
                simpa [List.getLast?_append, List.getLast?_cons] using hc2
              subst this
              have hk1 := hr.dollar _ (occ_child [] [] root x hx [] d (l ++ m' :: r'.concat d2') (by rw [e]; rfl)) hd.1
              have hk2 := hr.dollar _ (occ_child [] [] root x hx (d :: l ++ m' :: r') d2' [] (by rw [e]; simp)) hd.2
              have heq : IsEquation x.2.1 l [m'] r' :=
                ⟨d, d2', by rw [e]; simp, hd.1, hd.2, hk1, hk2, ⟨m', rfl, hk⟩,
                  fun c hc => hl c (List.mem_cons_of_mem _ hc)⟩
              exact ⟨l, [m'], r', heq, (main _ _ _ heq).mp h0⟩
        · cases h
      · cases h
  · rintro ⟨front, body, back, h, ha⟩
    exact (main front body back h).mpr ha

/-! ## Carrying out an action -/

theorem whole_last {doc p : Text} {c : Char} (h : c ≠ '\r') : Whole doc (p ++ [c]) := by
  intro post _ hc
  rw [List.getLast?_append] at hc
  simp at hc
  exact h hc.1

theorem whole_head {doc pre rest : Text} {c : Char} (e : doc = pre ++ c :: rest) (h : c ≠ '\n') : Whole doc pre := by
  intro post hp hc
  rw [e, List.append_right_inj] at hp
  rw [← hp] at hc
  simp at hc
  exact h hc.2

theorem replicate_split (d : Nat) (h : 1 ≤ d) : List.replicate d '=' = List.replicate (d - 1) '=' ++ ['='] := by
  obtain ⟨n, rfl⟩ : ∃ n, d = n + 1 := ⟨d - 1, by omega⟩
  rw [Nat.add_sub_cancel, List.replicate_succ']

theorem heading_text {n : Node} {front rest : Text} {d : Nat} (h : IsHeading n front d rest) :
    text n = front ++ List.replicate d '=' ++ rest := by
  obtain ⟨l, m, r, e, _, _, hd, rfl, rfl⟩ := h
  have : text n = textAll n.children := by
    cases n with
    | leaf k t => simp [Node.children] at e
    | inner k cs => rw [text]; rfl
  rw [this, e, textAll_append, textAll, hd]; simp

theorem equation_text {n : Node} {front body back : List Node} (h : IsEquation n front body back) :
    text n = ['$'] ++ textAll front ++ textAll body ++ textAll back ++ ['$'] := by
  obtain ⟨d1, d2, e, _, _, t1, t2, _, _⟩ := h
  have : text n = textAll n.children := by
    cases n with
    | leaf k t => simp [Node.children] at e
    | inner k cs => rw [text]; rfl
  rw [this, e]
  simp [textAll_append, textAll, t1, t2]

theorem heading_done {enc : Encoding} {root : Node} (hp : Plain enc (text root)) {x} (hx : x ∈ occurrences [] [] root)
    {front rest : Text} {d : Nat} (h : IsHeading x.2.1 front d rest) (hd : 1 ≤ d) (w : Text) :
    ∃ cs, (editsOf [] [(x.1 ++ front, List.replicate d '=', w)]).mapM (Edit.toLsp enc (text root)) = some cs ∧
      Replaced enc (text root) (text root) cs (x.1 ++ front ++ w ++ rest ++ x.2.2) := by
  have e : text root = [] ++ oldText [(x.1 ++ front, List.replicate d '=', w)] ++ (rest ++ x.2.2) := by
    rw [occ_doc hx, heading_text h]; simp [oldText]
  obtain ⟨cs, h1, h2⟩ := replaced_of hp _ [] (rest ++ x.2.2) e ⟨by
      rw [List.nil_append]
      obtain ⟨n, rfl⟩ : ∃ n, d = n + 1 := ⟨d - 1, by omega⟩
      refine whole_head (c := '=') (rest := List.replicate n '=' ++ rest ++ x.2.2) ?_ (by decide)
      rw [e]; simp [oldText, List.replicate_succ], by
      rw [replicate_split d hd, ← List.append_assoc]
      exact whole_last (by decide), trivial⟩
  refine ⟨cs, h1, ?_⟩
  rw [List.nil_append] at e
  rw [← e] at h2
  simpa [newText] using h2

theorem marker_pos {root : Node} (hr : Parsed root) {x} (hx : x ∈ occurrences [] [] root) {front rest : Text} {d : Nat}
    (h : IsHeading x.2.1 front d rest) : 1 ≤ d := by
  obtain ⟨l, m, r, e, hk, _, hd, _, _⟩ := h
  obtain ⟨d', h1, h2⟩ := hr.marker _ (occ_child [] [] root x hx l m r e) hk
  simp only at h2
  have := congrArg List.length (hd.symm.trans h2)
  simp at this
  omega

theorem equation_done {enc : Encoding} {punct : Char → Bool} (hpu : punct '\r' = false) {root : Node} (hr : Parsed root)
    (hp : Plain enc (text root)) {x} (hx : x ∈ occurrences [] [] root) {front body back : List Node}
    (h : IsEquation x.2.1 front body back) (new : Text) :
    ∃ cs out, (editsOf [] (pieces x.1 (textAll front) (textAll body) (textAll back) (markAfter punct x.2.2) new)).mapM
        (Edit.toLsp enc (text root)) = some cs ∧
      Replaced enc (text root) (text root) cs out ∧ Converted punct x.1 (textAll body) x.2.2 new out := by
  obtain ⟨b1, b2, b3⟩ := hr.body x hx front body back h
  have e0 : text root = x.1 ++ ['$'] ++ textAll front ++ textAll body ++ textAll back ++ ['$'] ++ x.2.2 := by
    rw [occ_doc hx, equation_text h]; simp
  generalize textAll front = F at *
  generalize textAll body = B at *
  generalize textAll back = K at *
  have w1 : Whole (text root) (x.1 ++ ['$']) := whole_last (by decide)
  have w2 : Whole (text root) (x.1 ++ ['$'] ++ F) := by
    cases hB : B with
    | nil => rw [b1 hB, List.append_nil]; exact w1
    | cons c B' =>
      refine whole_head (c := c) (rest := B' ++ K ++ ['$'] ++ x.2.2) (by rw [e0, hB]; simp) (b2 c (by rw [hB]; rfl))
  have w3 : Whole (text root) (x.1 ++ ['$'] ++ F ++ B) := by
    rcases List.eq_nil_or_concat B with hB | ⟨B', c, hB⟩
    · rw [hB, List.append_nil]; exact w2
    · rw [hB, List.concat_eq_append, ← List.append_assoc]
      exact whole_last (b3 c (by rw [hB]; simp))
  have w4 : Whole (text root) (x.1 ++ ['$'] ++ F ++ B ++ K) :=
    whole_head (c := '$') (rest := x.2.2) (by rw [e0]; simp) (by decide)
  have w5 : Whole (text root) (x.1 ++ ['$'] ++ F ++ B ++ K ++ ['$']) := whole_last (by decide)
  by_cases hn : new = []
  · subst hn
    obtain ⟨cs, h1, h2⟩ := replaced_of hp (pieces x.1 F B K (markAfter punct x.2.2) []) [] (['$'] ++ x.2.2)
      (by rw [e0]; simp [pieces, oldText]) (by simp only [pieces, if_true, AllWhole, List.nil_append]; exact ⟨w1, w2, w3, w4, trivial⟩)
    refine ⟨cs, _, h1, ?_, .plain (.inl rfl)⟩
    have eo : oldText (pieces x.1 F B K (markAfter punct x.2.2) []) ++ (['$'] ++ x.2.2) = text root := by
      rw [e0]; simp [pieces, oldText]
    rw [eo] at h2
    simpa [pieces, newText] using h2
  · cases hm : markAfter punct x.2.2 with
    | none =>
      obtain ⟨cs, h1, h2⟩ := replaced_of hp (pieces x.1 F B K none new) [] (['$'] ++ x.2.2)
        (by rw [e0]; simp [pieces, oldText, hn]) (by simp only [pieces, if_neg hn, AllWhole, List.nil_append]; exact ⟨w1, w2, w3, w4, trivial⟩)
      refine ⟨cs, _, h1, ?_, .plain (.inr fun c rest ht => ?_)⟩
      · have eo : oldText (pieces x.1 F B K none new) ++ (['$'] ++ x.2.2) = text root := by
          rw [e0]; simp [pieces, oldText, hn]
        rw [eo] at h2
        simpa [pieces, newText, hn] using h2
      · rw [(markAfter_some punct x.2.2 c).mpr ⟨rest, ht⟩] at hm
        cases hm
    | some c =>
      obtain ⟨rest, ht⟩ := (markAfter_some punct x.2.2 c).mp hm
      have hc : c ≠ '\r' := by
        rintro rfl
        rcases ht.2 with ⟨hs, _⟩ | ⟨_, hs⟩
        · exact absurd hs (by unfold AsciiSign; decide)
        · rw [hpu] at hs; cases hs
      obtain ⟨cs, h1, h2⟩ := replaced_of hp (pieces x.1 F B K (some c) new) [] rest
        (by rw [e0, ht.1]; simp [pieces, oldText, hn]) (by
          simp only [pieces, if_neg hn, AllWhole, List.nil_append]; exact ⟨w1, w2, w3, w4, w5, whole_last hc, trivial⟩)
      refine ⟨cs, _, h1, ?_, .taken c rest hn ht⟩
      have eo : oldText (pieces x.1 F B K (some c) new) ++ rest = text root := by
        rw [e0, ht.1]; simp [pieces, oldText, hn]
      rw [eo] at h2
      simpa [pieces, newText, hn] using h2

/-- The actions for a selection, by what the tree says. -/
theorem work_iff (proseAt : List (Nat × Node) → Bool) (punct : Char → Bool) {root : Node} (hne : text root ≠ [])
    (start stop : Nat) (hs : start ≤ len8 (text root)) (a : Action) :
    a ∈ work proseAt punct root start stop ↔
      (start < stop ∧ proseAt (chain root (seen root start)) = true ∧ a = ⟨.wrap, [⟨start, start, ['#', '[']⟩, ⟨stop, stop, [']']⟩]⟩) ∨
      (∃ x, Innermost root (seen root start) .heading x ∧ a ∈ headingActions (len8 x.1) x.2.1) ∨
      (∃ x, Innermost root (seen root start) .equation x ∧ a ∈ equationActions punct x.2.2 (len8 x.1) x.2.1) := by
  have hpos : 0 < len8 (text root) := by
    cases ht : text root with
    | nil => exact (hne ht).elim
    | cons c t => rw [len8_cons]; have := c.utf8Size_pos; omega
  have hl := leafBefore_eq [] [] root (seen root start) (by rw [len8_nil]; omega) (by rw [len8_nil]; simp only [seen]; omega)
  rw [len8_nil] at hl
  have hc : min (start + 1) (len8 (text root)) = seen root start + 1 := by simp only [seen]; omega
  have hch : chain root (seen root start) =
      ((occurrences [] [] root).filter (Around (seen root start))).reverse.map located := rfl
  rw [hch]
  simp only [work, hc, hl]
  rw [List.mem_append, climb_iff punct _ _ (fun x hx => occ_doc (List.mem_filter.mp (List.mem_reverse.mp hx)).1)]
  simp only [← innermost_iff, true_and]
  refine or_congr ?_ Iff.rfl
  simp only [wrapActions]
  by_cases h1 : start ≥ stop
  · rw [if_pos h1]
    simp only [List.not_mem_nil, false_iff]
    rintro ⟨h, _⟩; omega
  · rw [if_neg h1]
    cases proseAt _ <;> simp [Nat.lt_of_not_le h1]

/-- Every action can be shown to the client, and carried out it does what it should. -/
theorem action_done {enc : Encoding} {proseAt : List (Nat × Node) → Bool} {punct : Char → Bool} (hpu : punct '\r' = false)
    {root : Node} (hr : Parsed root) (hp : Plain enc (text root)) (hne : text root ≠ []) {pre sel post : Text}
    (e : text root = pre ++ sel ++ post) {l1 c1 l2 c2 : Nat} (p1 : Pos enc (text root) l1 c1 (sel ++ post))
    (p2 : Pos enc (text root) l2 c2 post) (a : Action) (ha : a ∈ work proseAt punct root (len8 pre) (len8 (pre ++ sel))) :
    ∃ cs out, a.edits.mapM (Edit.toLsp enc (text root)) = some cs ∧ Replaced enc (text root) (text root) cs out ∧
      Meant punct root pre sel post a.title out := by
  have o1 := pos_offset (pre := pre) p1 hp (by rw [e]; simp)
  have o2 := pos_offset (pre := pre ++ sel) p2 hp e
  have hlen : len8 pre ≤ len8 (text root) := by rw [e, List.append_assoc, len8_append]; omega
  rcases (work_iff proseAt punct hne _ _ hlen a).mp ha with ⟨h, _, rfl⟩ | ⟨x, hx, h⟩ | ⟨x, hx, h⟩
  · refine ⟨[⟨some ((l1, c1), (l1, c1)), ['#', '[']⟩, ⟨some ((l2, c2), (l2, c2)), [']']⟩],
      pre ++ ['#', '['] ++ (sel ++ [']'] ++ post), ?_, ?_, ?_⟩
    · simp only [List.mapM_cons, List.mapM_nil, Edit.toLsp, o1.2, o2.2]
      rfl
    · have r2 := Replaced.cons sel [] post [']'] post l2 c2 l2 c2 [] (doc := text root) (enc := enc) (by simpa using p2) p2
        (.nil post)
      have r1 := Replaced.cons pre [] (sel ++ post) ['#', '['] _ l1 c1 l1 c1 _ (by simpa using p1) p1
        (by simpa using r2)
      have : text root = pre ++ [] ++ (sel ++ post) := by rw [e]; simp
      conv => arg 3; rw [this]
      rw [show sel ++ [']'] ++ post = sel ++ ']' :: post by simp]
      exact r1
    · have := Meant.wrap (punct := punct) (root := root) (pre := pre) (post := post) (sel := sel) (by
        rintro rfl
        simp at h)
      simpa using this
  · have hm := innermost_mem hx
    obtain ⟨front, d, rest, hh, ⟨h2, rfl⟩ | rfl⟩ := (heading_iff hr hm a).mp h
    · obtain ⟨cs, r1, r2⟩ := heading_done hp hm hh (by omega) (List.replicate (d - 1) '=')
      refine ⟨cs, _, r1, r2, ?_⟩
      refine .decrease x front (d - 1) rest hx ?_ (by omega)
      rwa [show d - 1 + 1 = d by omega]
    · obtain ⟨cs, r1, r2⟩ := heading_done hp hm hh (marker_pos hr hm hh) (List.replicate (d + 1) '=')
      exact ⟨cs, _, r1, r2, .increase x front d rest hx hh⟩
  · have hm := innermost_mem hx
    obtain ⟨front, body, back, hh, ⟨hb, rfl⟩ | ⟨hb, rfl⟩ | rfl⟩ := (equation_iff hr punct hm a).mp h
    · obtain ⟨cs, out, r1, r2, r3⟩ := equation_done hpu hr hp hm hh []
      exact ⟨cs, out, r1, r2, .toInline x front body back out hx hh hb r3⟩
    · obtain ⟨cs, out, r1, r2, r3⟩ := equation_done hpu hr hp hm hh [' ']
      exact ⟨cs, out, r1, r2, .toBlock x front body back out hx hh hb r3⟩
    · obtain ⟨cs, out, r1, r2, r3⟩ := equation_done hpu hr hp hm hh ['\n']
      exact ⟨cs, out, r1, r2, .toLines x front body back out hx hh r3⟩

theorem mapM_mem {A B : Type} (f : A → Option B) (l : List A) (h : ∀ a ∈ l, ∃ b, f a = some b) :
    ∃ r, l.mapM f = some r ∧ ∀ b, b ∈ r ↔ ∃ a ∈ l, f a = some b := by
  induction l with
  | nil => exact ⟨[], rfl, by simp⟩
  | cons x l ih =>
    obtain ⟨y, hy⟩ := h x (List.mem_cons_self ..)
    obtain ⟨r, hr, hm⟩ := ih (fun a ha => h a (List.mem_cons_of_mem _ ha))
    refine ⟨y :: r, by simp [List.mapM_cons, hy, hr], fun b => ?_⟩
    simp [hm, hy, eq_comm]

theorem request_mem {enc : Encoding} {proseAt : List (Nat × Node) → Bool} {punct : Char → Bool} (hpu : punct '\r' = false)
    {root : Node} (hr : Parsed root) (hp : Plain enc (text root)) (hne : text root ≠ []) {pre sel post : Text}
    (e : text root = pre ++ sel ++ post) {l1 c1 l2 c2 : Nat} (p1 : Pos enc (text root) l1 c1 (sel ++ post))
    (p2 : Pos enc (text root) l2 c2 post) (t : Title) (cs : List Change) :
    (∃ acts, request enc proseAt punct root ((l1, c1), (l2, c2)) = some acts ∧ (t, cs) ∈ acts) ↔
      ∃ a ∈ work proseAt punct root (len8 pre) (len8 (pre ++ sel)), a.title = t ∧
        a.edits.mapM (Edit.toLsp enc (text root)) = some cs := by
  have o1 := pos_offset (pre := pre) p1 hp (by rw [e]; simp)
  have o2 := pos_offset (pre := pre ++ sel) p2 hp e
  obtain ⟨r, hr1, hr2⟩ := mapM_mem (fun a : Action => (a.edits.mapM (Edit.toLsp enc (text root))).map fun cs => (a.title, cs))
    (work proseAt punct root (len8 pre) (len8 (pre ++ sel))) (fun a ha => by
      obtain ⟨cs, _, h, _⟩ := action_done hpu hr hp hne e p1 p2 a ha
      exact ⟨(a.title, cs), by simp only [h]; rfl⟩)
  have hq : request enc proseAt punct root ((l1, c1), (l2, c2)) =
      if (work proseAt punct root (len8 pre) (len8 (pre ++ sel))).isEmpty then none else some r := by
    simp only [request, toTypstRange, o1.1, o2.1, Option.bind_eq_bind, Option.bind_some, Option.pure_def, hr1]
  rw [hq]
  constructor
  · rintro ⟨acts, h1, h2⟩
    split at h1
    · cases h1
    · injection h1 with h1
      subst h1
      obtain ⟨a, ha, hf⟩ := (hr2 _).mp h2
      cases hm : a.edits.mapM (Edit.toLsp enc (text root)) with
      | none => simp [hm] at hf
      | some cs' =>
        simp only [hm, Option.map_some, Option.some.injEq, Prod.mk.injEq] at hf
        exact ⟨a, ha, hf.1, by rw [hm, hf.2]⟩
  · rintro ⟨a, ha, rfl, hm⟩
    rw [if_neg (by intro h; rw [List.isEmpty_iff.mp h] at ha; cases ha)]
    exact ⟨r, rfl, (hr2 _).mpr ⟨a, ha, by simp only [hm]; rfl⟩⟩

/-- **C81, carried out.** Every action of the answer, carried out by the client, turns the document into what its title
says, and into nothing else: the selection in a content block, the innermost heading around the start of the selection one
level up or down, the innermost equation there converted. -/
theorem actions_meant {enc : Encoding} {proseAt : List (Nat × Node) → Bool} {punct : Char → Bool} (hpu : punct '\r' = false)
    {root : Node} (hr : Parsed root) (hp : Plain enc (text root)) (hne : text root ≠ []) {pre sel post : Text}
    (e : text root = pre ++ sel ++ post) {l1 c1 l2 c2 : Nat} (p1 : Pos enc (text root) l1 c1 (sel ++ post))
    (p2 : Pos enc (text root) l2 c2 post) {acts} (ha : request enc proseAt punct root ((l1, c1), (l2, c2)) = some acts) :
    ∀ t cs, (t, cs) ∈ acts → ∃ out, Replaced enc (text root) (text root) cs out ∧ Meant punct root pre sel post t out := by
  intro t cs hm
  obtain ⟨a, h1, rfl, h2⟩ := (request_mem hpu hr hp hne e p1 p2 t cs).mp ⟨acts, ha, hm⟩
  obtain ⟨cs', out, h3, h4, h5⟩ := action_done hpu hr hp hne e p1 p2 a h1
  rw [h3] at h2
  injection h2 with h2
  subst h2
  exact ⟨out, h4, h5⟩

/-- **C81, offered.** An action is offered exactly when there is something to do: something is selected in markup or math;
there is a heading, for less depth one of depth two or more; there is a closed equation, a block to make it inline, not a
block to make it one. -/
theorem offered_iff {enc : Encoding} {proseAt : List (Nat × Node) → Bool} {punct : Char → Bool} (hpu : punct '\r' = false)
    {root : Node} (hr : Parsed root) (hp : Plain enc (text root)) (hne : text root ≠ []) {pre sel post : Text}
    (e : text root = pre ++ sel ++ post) {l1 c1 l2 c2 : Nat} (p1 : Pos enc (text root) l1 c1 (sel ++ post))
    (p2 : Pos enc (text root) l2 c2 post) (t : Title) :
    (∃ acts cs, request enc proseAt punct root ((l1, c1), (l2, c2)) = some acts ∧ (t, cs) ∈ acts) ↔
      Offered (proseAt (chain root (seen root (len8 pre)))) root pre sel t := by
  have hlen : len8 pre ≤ len8 (text root) := by rw [e, List.append_assoc, len8_append]; omega
  have step : (∃ acts cs, request enc proseAt punct root ((l1, c1), (l2, c2)) = some acts ∧ (t, cs) ∈ acts) ↔
      ∃ a ∈ work proseAt punct root (len8 pre) (len8 (pre ++ sel)), a.title = t := by
    constructor
    · rintro ⟨acts, cs, h1, h2⟩
      obtain ⟨a, ha, ht, _⟩ := (request_mem hpu hr hp hne e p1 p2 t cs).mp ⟨acts, h1, h2⟩
      exact ⟨a, ha, ht⟩
    · rintro ⟨a, ha, rfl⟩
      obtain ⟨cs, _, h, _⟩ := action_done hpu hr hp hne e p1 p2 a ha
      obtain ⟨acts, h1, h2⟩ := (request_mem hpu hr hp hne e p1 p2 a.title cs).mpr ⟨a, ha, rfl, h⟩
      exact ⟨acts, cs, h1, h2⟩
  rw [step]
  simp only [work_iff proseAt punct hne _ _ hlen]
  have hsel : len8 pre < len8 (pre ++ sel) ↔ sel ≠ [] := by
    rw [len8_append]
    cases sel with
    | nil => simp [len8]
    | cons c s => rw [len8_cons]; have := c.utf8Size_pos; simp; omega
  constructor
  · rintro ⟨a, ⟨h1, h2, rfl⟩ | ⟨x, hx, h⟩ | ⟨x, hx, h⟩, rfl⟩
    · exact ⟨hsel.mp h1, h2⟩
    · obtain ⟨front, d, rest, hh, ⟨h2, rfl⟩ | rfl⟩ := (heading_iff hr (innermost_mem hx) a).mp h
      · exact ⟨x, front, d, rest, hx, hh, h2⟩
      · exact ⟨x, front, d, rest, hx, hh⟩
    · obtain ⟨front, body, back, hh, ⟨hb, rfl⟩ | ⟨hb, rfl⟩ | rfl⟩ := (equation_iff hr punct (innermost_mem hx) a).mp h
      · exact ⟨x, front, body, back, hx, hh, hb⟩
      · exact ⟨x, front, body, back, hx, hh, hb⟩
      · exact ⟨x, front, body, back, hx, hh⟩
  · intro h
    cases t with
    | wrap => exact ⟨_, .inl ⟨hsel.mpr h.1, h.2, rfl⟩, rfl⟩
    | decrease =>
      obtain ⟨x, front, d, rest, hx, hh, h2⟩ := h
      exact ⟨_, .inr (.inl ⟨x, hx, (heading_iff hr (innermost_mem hx) _).mpr ⟨front, d, rest, hh, .inl ⟨h2, rfl⟩⟩⟩), rfl⟩
    | increase =>
      obtain ⟨x, front, d, rest, hx, hh⟩ := h
      exact ⟨_, .inr (.inl ⟨x, hx, (heading_iff hr (innermost_mem hx) _).mpr ⟨front, d, rest, hh, .inr rfl⟩⟩), rfl⟩
    | toInline =>
      obtain ⟨x, front, body, back, hx, hh, hb⟩ := h
      exact ⟨_, .inr (.inr ⟨x, hx, (equation_iff hr punct (innermost_mem hx) _).mpr
        ⟨front, body, back, hh, .inl ⟨hb, rfl⟩⟩⟩), rfl⟩
    | toBlock =>
      obtain ⟨x, front, body, back, hx, hh, hb⟩ := h
      exact ⟨_, .inr (.inr ⟨x, hx, (equation_iff hr punct (innermost_mem hx) _).mpr
        ⟨front, body, back, hh, .inr (.inl ⟨hb, rfl⟩)⟩⟩), rfl⟩
    | toLines =>
      obtain ⟨x, front, body, back, hx, hh⟩ := h
      exact ⟨_, .inr (.inr ⟨x, hx, (equation_iff hr punct (innermost_mem hx) _).mpr
        ⟨front, body, back, hh, .inr (.inr rfl)⟩⟩), rfl⟩

theorem ink_append (a b : Text) : ink (a ++ b) = ink a ++ ink b := by simp [ink]

theorem ink_blank {s : Text} (h : ∀ c ∈ s, Pages.Space c) : ink s = [] := by
  simp only [ink, List.filter_eq_nil_iff, decide_eq_true_eq, Classical.not_not]
  exact h

/-- **C81, what a conversion keeps, partial.** When an equation is converted, all the document stays except for white space.
It is partial: between the dollar signs and the body there must be nothing but white space, see `comment_lost`, and no
punctuation sign that is taken into the equation may follow, see `bracket_taken`. -/
theorem conversion_keeps_partial {punct : Char → Bool} {root : Node} {pre sel post out : Text} {t : Title}
    (ht : t = .toInline ∨ t = .toBlock ∨ t = .toLines) (h : Meant punct root pre sel post t out)
    (hb : ∀ x front body back, Innermost root (seen root (len8 pre)) .equation x → IsEquation x.2.1 front body back →
      (∀ c ∈ textAll front ++ textAll back, Pages.Space c) ∧ ∀ c rest, ¬ Takes punct x.2.2 c rest) :
    ink out = ink (text root) := by
  have key : ∀ x front body back new, Innermost root (seen root (len8 pre)) .equation x →
      IsEquation x.2.1 front body back → (∀ c ∈ new, Pages.Space c) → Converted punct x.1 (textAll body) x.2.2 new out →
      ink out = ink (text root) := by
    intro x front body back new hx hh hn hc
    obtain ⟨h1, h2⟩ := hb x front body back hx hh
    rw [occ_doc (innermost_mem hx), equation_text hh]
    have i1 := ink_blank (s := textAll front) fun c hc => h1 c (List.mem_append_left _ hc)
    have i2 := ink_blank (s := textAll back) fun c hc => h1 c (List.mem_append_right _ hc)
    cases hc with
    | plain _ => simp only [ink_append, i1, i2, ink_blank hn]; simp
    | taken c rest _ ht => exact (h2 c rest ht).elim
  have hsp : Pages.Space ' ' ∧ Pages.Space '\n' := by unfold Pages.Space; decide
  cases h with
  | wrap => simp at ht
  | decrease => simp at ht
  | increase => simp at ht
  | toInline x front body back _ hx hh _ hc => exact key x front body back _ hx hh (by simp) hc
  | toBlock x front body back _ hx hh _ hc => exact key x front body back _ hx hh (by simpa using hsp.1) hc
  | toLines x front body back _ hx hh hc => exact key x front body back _ hx hh (by simpa using hsp.2) hc

/-- Deeper and back: when the text with the deeper heading is parsed with the heading at the same place, less depth gives
back the document. -/
theorem depth_restored {punct : Char → Bool} {root root' : Node} {pre sel post pre' sel' post' out out' : Text}
    {x x' : Text × Node × Text} {front rest : Text} {d : Nat}
    (hx : Innermost root (seen root (len8 pre)) .heading x) (hh : IsHeading x.2.1 front d rest)
    (h : Meant punct root pre sel post .increase out)
    (hx' : Innermost root' (seen root' (len8 pre')) .heading x') (hh' : IsHeading x'.2.1 front (d + 1) rest)
    (he : x'.1 = x.1 ∧ x'.2.2 = x.2.2) (h' : Meant punct root' pre' sel' post' .decrease out') :
    out = text root' ∧ out' = text root := by
  have uniq : ∀ {root : Node} {b : Nat} {x y}, Innermost root b .heading x → Innermost root b .heading y → x = y := by
    intro root b x y h1 h2
    rw [innermost_iff] at h1 h2
    generalize ((occurrences [] [] root).filter (Around b)).reverse = L at h1 h2
    induction L with
    | nil => exact (first_nil _ _ h1).elim
    | cons z L ih =>
      rw [first_cons] at h1 h2
      rcases h1 with ⟨k1, e1⟩ | ⟨k1, f1⟩ <;> rcases h2 with ⟨k2, e2⟩ | ⟨k2, f2⟩
      · rw [e1, e2]
      · exact (k2 k1).elim
      · exact (k1 k2).elim
      · exact ih f1 f2
  have t1 := occ_doc (innermost_mem hx)
  have t2 := occ_doc (innermost_mem hx')
  rw [heading_text hh] at t1
  rw [heading_text hh', he.1, he.2] at t2
  cases h with
  | increase y f d' r hy hf =>
    obtain rfl := uniq hx hy
    obtain ⟨rfl, rfl, rfl⟩ := heading_unique hh hf
    cases h' with
    | decrease z f d' r hz hf' _ =>
      obtain rfl := uniq hx' hz
      obtain ⟨hd, rfl, rfl⟩ := heading_unique hh' hf'
      have : d' = d := by omega
      subst this
      exact ⟨by rw [t2]; simp, by rw [t1, he.1, he.2]; simp⟩

/-! ## What the actions get wrong -/

deriving instance DecidableEq for Position.Change

/-- `#f[$x$]`. -/
def bracketDoc : Node :=
  .inner .other [.leaf .other ['#'], .inner .other [.leaf .other ['f'], .leaf .other ['['],
    .inner .equation [.leaf .dollar ['$'], .inner .math [.leaf .other ['x']], .leaf .dollar ['$']], .leaf .other [']']]]

/-- A closing bracket behind an equation counts as punctuation: converted to a block, the equation takes it along, and the
call is no longer closed. -/
theorem bracket_taken :
    (request .utf16 (fun _ => true) (fun _ => false) bracketDoc ((0, 4), (0, 4))).map (·.head?) =
      some (some (.toBlock, [⟨some ((0, 4), (0, 4)), [' ']⟩, ⟨some ((0, 5), (0, 5)), [']', ' ']⟩, ⟨some ((0, 6), (0, 7)), []⟩])) ∧
    Meant (fun _ => false) bracketDoc ['#', 'f', '[', '$'] [] ['x', '$', ']'] .toBlock
      ['#', 'f', '[', '$', ' ', 'x', ']', ' ', '$'] := by
  refine ⟨by decide +kernel, ?_⟩
  refine .toBlock (['#', 'f', '['],
    .inner .equation [.leaf .dollar ['$'], .inner .math [.leaf .other ['x']], .leaf .dollar ['$']], [']']) []
    [.inner .math [.leaf .other ['x']]] [] _ ⟨[_, _], [_, _], rfl, rfl, by simp [Node.kind]⟩
    ⟨_, _, rfl, rfl, rfl, rfl, rfl, ⟨_, rfl, rfl⟩, by simp⟩ (by simp [Block]) ?_
  exact .taken ']' [] (by simp) ⟨rfl, .inl ⟨by unfold AsciiSign; decide, by simp⟩⟩

/-- `$/*c*/x$`. -/
def commentDoc : Node :=
  .inner .other [.inner .equation [.leaf .dollar ['$'], .leaf .other ['/', '*', 'c', '*', '/'],
    .inner .math [.leaf .other ['x']], .leaf .dollar ['$']]]

/-- A comment between the dollar sign and the body is gone after a conversion. -/
theorem comment_lost :
    (request .utf16 (fun _ => true) (fun _ => false) commentDoc ((0, 6), (0, 6))).map (·.head?) =
      some (some (.toBlock, [⟨some ((0, 1), (0, 6)), [' ']⟩, ⟨some ((0, 7), (0, 7)), [' ']⟩])) ∧
    Meant (fun _ => false) commentDoc ['$', '/', '*', 'c', '*', '/'] [] ['x', '$'] .toBlock ['$', ' ', 'x', ' ', '$'] := by
  refine ⟨by decide +kernel, ?_⟩
  refine .toBlock ([], .inner .equation [.leaf .dollar ['$'], .leaf .other ['/', '*', 'c', '*', '/'],
      .inner .math [.leaf .other ['x']], .leaf .dollar ['$']], []) [.leaf .other ['/', '*', 'c', '*', '/']]
    [.inner .math [.leaf .other ['x']]] [] _ ⟨[_], [_, _], rfl, rfl, by simp [Node.kind]⟩
    ⟨_, _, rfl, rfl, rfl, rfl, rfl, ⟨_, rfl, rfl⟩, by simp [Node.kind]⟩ (by simp [Block, Node.kind]) ?_
  exact .plain (.inr fun c rest h => by simp [Takes] at h)

/-- `#f[a] b`. -/
def crossDoc : Node :=
  .inner .other [.leaf .other ['#'], .inner .other [.leaf .other ['f'], .leaf .other ['['], .leaf .other ['a'], .leaf .other [']']],
    .leaf .space [' '], .leaf .other ['b']]

/-- The end of the selection is not looked at: `a] b` selected in `#f[a] b`, the text becomes `#f[#[a] b]`, where the new block
holds only `a`. -/
theorem wrap_crosses :
    request .utf16 (fun _ => true) (fun _ => false) crossDoc ((0, 3), (0, 7)) =
      some [(.wrap, [⟨some ((0, 3), (0, 3)), ['#', '[']⟩, ⟨some ((0, 7), (0, 7)), [']']⟩])] ∧
    Meant (fun _ => false) crossDoc ['#', 'f', '['] ['a', ']', ' ', 'b'] [] .wrap
      ['#', 'f', '[', '#', '[', 'a', ']', ' ', 'b', ']'] := by
  refine ⟨by decide +kernel, ?_⟩
  exact .wrap (by simp)

/-! ## The hypotheses are met -/

/-- `== a $ x $`: a heading with a block equation. -/
def sampleDoc : Node :=
  .inner .other [.inner .heading [.leaf .headingMarker ['=', '='], .leaf .space [' '], .inner .other [.leaf .other ['a'],
    .leaf .space [' '], .inner .equation [.leaf .dollar ['$'], .leaf .space [' '], .inner .math [.leaf .other ['x']],
      .leaf .space [' '], .leaf .dollar ['$']]]]]

example : Parsed sampleDoc := by
  constructor
  · intro x hx hk
    simp only [sampleDoc, occurrences, occurrencesIn, textAll, text, List.mem_cons, List.mem_append, List.not_mem_nil, or_false,
      List.append_nil, List.nil_append, List.cons_append] at hx
    rcases hx with rfl | rfl | rfl | rfl | rfl | rfl | rfl | rfl | rfl | rfl | rfl | rfl | rfl | rfl <;> simp [Node.kind] at hk
    exact ⟨2, by omega, rfl⟩
  · intro x hx hk
    simp only [sampleDoc, occurrences, occurrencesIn, textAll, text, List.mem_cons, List.mem_append, List.not_mem_nil, or_false,
      List.append_nil, List.nil_append, List.cons_append] at hx
    rcases hx with rfl | rfl | rfl | rfl | rfl | rfl | rfl | rfl | rfl | rfl | rfl | rfl | rfl | rfl <;> simp [Node.kind] at hk <;> rfl
  · intro x hx front body back h
    have hq : IsEquation (.inner .equation [.leaf .dollar ['$'], .leaf .space [' '], .inner .math [.leaf .other ['x']],
      .leaf .space [' '], .leaf .dollar ['$']]) [.leaf .space [' ']] [.inner .math [.leaf .other ['x']]] [.leaf .space [' ']] :=
      ⟨_, _, rfl, rfl, rfl, rfl, rfl, ⟨_, rfl, rfl⟩, by simp [Node.kind]⟩
    simp only [sampleDoc, occurrences, occurrencesIn, textAll, text, List.mem_cons, List.mem_append, List.not_mem_nil, or_false,
      List.append_nil, List.nil_append, List.cons_append] at hx
    rcases hx with rfl | rfl | rfl | rfl | rfl | rfl | rfl | rfl | rfl | rfl | rfl | rfl | rfl | rfl
    all_goals first
      | (obtain ⟨rfl, rfl, rfl⟩ := equation_unique hq h; simp [textAll, text])
      | (obtain ⟨d1, d2, e, k1, _, _, _, _, _⟩ := h; simp [Node.children] at e; try (rw [← e.1] at k1; simp [Node.kind] at k1))

example : (request .utf16 (fun _ => true) (fun _ => false) sampleDoc ((0, 7), (0, 8))).map (·.map (·.1)) =
    some [.wrap, .toInline, .toLines, .decrease, .increase] := by decide +kernel

end Tinymist.CodeAction
