import Verif.Lemmas.Tokens
/-!
# C45: semantic tokens are well-formed

For every syntax tree: any nesting, any distribution of texts over leaves, any tags.
-/
namespace Tinymist.Tokens
open Tinymist.Position

/-! ## What has to be highlighted -/

theorem Tiles.append {a b c : Nat} {L M : List Piece} (h : Tiles a L b) (h' : Tiles b M c) : Tiles a (L ++ M) c := by
  induction h with
  | nil => exact h'
  | cons p hp _ ih => exact .cons p hp (ih h')

theorem Tiles.le {a b : Nat} {L : List Piece} (h : Tiles a L b) : a ≤ b := by
  induction h with
  | nil => exact Nat.le_refl _
  | cons p hp _ ih => omega

mutual
theorem leaves_tile (n : Node) (b : Nat) : Tiles b (leaves n b) (b + len8 n.text) := by
  cases n with
  | leaf text tag =>
    simp only [leaves, Node.text]
    split
    · rename_i h; subst h; exact .nil _
    · rename_i h
      have := len8_pos h
      exact .cons ⟨b, b + len8 text, tag⟩ (by simp only; omega) (.nil _)
  | inner tag cs => simp only [leaves, Node.text]; exact forestLeaves_tile cs b
theorem forestLeaves_tile (ns : List Node) (b : Nat) : Tiles b (forestLeaves ns b) (b + len8 (forestText ns)) := by
  cases ns with
  | nil => exact .nil _
  | cons n ns =>
    simp only [forestLeaves, forestText, len8_append]
    rw [← Nat.add_assoc]
    exact (leaves_tile n b).append (forestLeaves_tile ns _)
end

theorem cut_tile (s : Text) (p : Piece) (h : p.start < p.stop) (hl : p.stop ≤ len8 s) :
    Tiles p.start (cut s p) p.stop := by
  have key : ∀ n i, Tiles (max p.start (min p.stop (startOf s i))) ((List.range' i n).filterMap (pieceAt s p))
      (max p.start (min p.stop (startOf s (i + n)))) := by
    intro n
    induction n with
    | zero => intro i; exact .nil _
    | succ n ih =>
      intro i
      have h1 := ih (i + 1)
      have h2 := startOf_le_succ s i
      rw [show i + 1 + n = i + (n + 1) by omega] at h1
      rw [List.range'_succ, List.filterMap_cons, pieceAt]
      by_cases hc : max p.start (startOf s i) < min p.stop (startOf s (i + 1))
      · rw [if_pos hc]
        simp only
        rw [show max p.start (min p.stop (startOf s i)) = max p.start (startOf s i) by omega]
        rw [show max p.start (min p.stop (startOf s (i + 1))) = min p.stop (startOf s (i + 1)) by omega] at h1
        exact .cons ⟨max p.start (startOf s i), min p.stop (startOf s (i + 1)), p.tag⟩ hc h1
      · rw [if_neg hc]
        simp only
        rw [show max p.start (min p.stop (startOf s i)) = max p.start (min p.stop (startOf s (i + 1))) by omega]
        exact h1
  have := key (lines s).length 0
  rw [startOf_zero, Nat.zero_add, startOf_big s _ (Nat.le_refl _), Nat.min_zero, Nat.max_zero,
    show max p.start (min p.stop (len8 s)) = p.stop by omega] at this
  show Tiles p.start ((List.range (lines s).length).filterMap (pieceAt s p)) p.stop
  rw [List.range_eq_range']
  exact this

theorem flatMap_tile (s : Text) {a b : Nat} {L : List Piece} (h : Tiles a L b) (hb : b ≤ len8 s) :
    Tiles a (L.flatMap (cut s)) b := by
  induction h with
  | nil => exact .nil _
  | cons p hp hs ih =>
    rw [List.flatMap_cons]
    have := hs.le
    exact (cut_tile s p hp (by omega)).append (ih hb)

/-- What is wanted tiles the document. -/
theorem wanted_tiles (m : Bool) (root : Node) : Tiles 0 (wanted m root) (len8 root.text) := by
  have := leaves_tile root 0
  rw [Nat.zero_add] at this
  rw [wanted]
  split
  · exact this
  · exact flatMap_tile _ this (Nat.le_refl _)

/-! ## Tokens -/

/-- **C45.** The tokenizer never panics, and a client that decodes its output finds the leaves (cut into lines if it
does not support multiline tokens), in order and each at its position. A leaf may be described more than once in a row,
with different tags. Missing: with UTF-8, columns are counted in characters although a client
counts bytes (`utf8_tokens_overlap`), so the positions are only right for ASCII lines. -/
theorem tokens_describe_leaves_partial (enc : Encoding) (m : Bool) (root : Node) :
    ∃ out E, semanticTokens enc m root = some out ∧ Stutter E (wanted m root) ∧
      (decode (0, 0) out).length = E.length ∧
      ∀ (i : Nat) (a : Abs) (p : Piece), (decode (0, 0) out)[i]? = some a → E[i]? = some p →
        Describes enc root.text a p := by
  obtain ⟨st, ll, E, h1, h2, _, _, _, h3⟩ := tree_spec ⟨root.text, enc, m⟩ root 0 0 (0 + len8 root.text) St.new [] []
    [] [] (by simp) rfl (inv_new _) (by intro p hp; cases hp) (Nat.le_refl _) .nil
  refine ⟨st.output, E, ?_, ?_, ?_, ?_⟩
  · rw [semanticTokens, h1]; rfl
  · rw [List.nil_append] at h3
    rw [wanted]
    cases m with
    | true =>
      rw [if_pos rfl]
      have : (leaves root 0).flatMap (piecesOf ⟨root.text, enc, true⟩) = leaves root 0 := by
        have hp : piecesOf ⟨root.text, enc, true⟩ = fun p => [p] := by funext p; rfl
        rw [hp]; simp
      rwa [this] at h3
    | false =>
      have hp : piecesOf ⟨root.text, enc, false⟩ = cut root.text := by funext p; rfl
      rw [hp] at h3
      exact h3
  · rw [h2.reads.dec]; simp
  · intro i a p ha hp
    rw [h2.reads.dec, List.getElem?_map, hp] at ha
    injection ha with ha
    subst ha
    obtain ⟨b1, b2, b3⟩ := h2.pieces p (List.mem_of_getElem? hp)
    exact describes_absOf ⟨root.text, enc, m⟩ p b1 b2 (Nat.le_of_lt b3)

/-- Pieces in order: the next one is the same stretch, or begins where the last one ended or later. -/
theorem stutter_pairwise {a b : Nat} {E D : List Piece} (h : Stutter E D) (hd : Tiles a D b) :
    E.Pairwise (fun p q => p.start = q.start ∧ p.stop = q.stop ∨ p.stop ≤ q.start) ∧
      (∀ p ∈ E, ∃ q ∈ D, p.start = q.start ∧ p.stop = q.stop) := by
  have hlast : ∀ {a b : Nat} {D : List Piece} {p : Piece}, Tiles a (D ++ [p]) b → ∀ q ∈ D, q.stop ≤ p.start := by
    intro a b D p ht
    induction D generalizing a with
    | nil => intro q hq; cases hq
    | cons d D ih =>
      intro q hq
      have hin : ∀ {x y : Nat} {L : List Piece}, Tiles x L y → ∀ q ∈ L, x ≤ q.start := by
        intro x y L ht
        induction ht with
        | nil => intro q hq; cases hq
        | cons r hr _ ih =>
          intro q hq
          rcases List.mem_cons.mp hq with rfl | hq
          · exact Nat.le_refl _
          · have := ih q hq; omega
      cases ht with
      | cons _ hp hs =>
        rcases List.mem_cons.mp hq with rfl | hq
        · exact hin hs p (by simp)
        · exact ih hs q hq
  have hinit : ∀ {b : Nat} {D : List Piece} {a : Nat} {p : Piece}, Tiles a (D ++ [p]) b → ∃ c, Tiles a D c := by
    intro b D
    induction D with
    | nil => intro a p _; exact ⟨a, .nil a⟩
    | cons d D ih =>
      intro a p ht
      cases ht with
      | cons _ hp hs =>
        obtain ⟨c, hc⟩ := ih hs
        exact ⟨c, .cons d hp hc⟩
  induction h generalizing b with
  | nil => exact ⟨List.Pairwise.nil, by intro p hp; cases hp⟩
  | next p h ih =>
    obtain ⟨c, hc⟩ := hinit hd
    obtain ⟨h1, h2⟩ := ih hc
    refine ⟨?_, ?_⟩
    · rw [List.pairwise_append]
      refine ⟨h1, by simp, ?_⟩
      intro x hx y hy
      rw [List.mem_singleton.mp hy]
      obtain ⟨q, hq, e1, e2⟩ := h2 x hx
      right
      rw [e2]
      exact hlast hd q hq
    · intro x hx
      rcases List.mem_append.mp hx with hx | hx
      · obtain ⟨q, hq, e⟩ := h2 x hx
        exact ⟨q, List.mem_append_left _ hq, e⟩
      · rw [List.mem_singleton.mp hx]
        exact ⟨p, by simp, rfl, rfl⟩
  | again p tag h ih =>
    obtain ⟨h1, h2⟩ := ih hd
    refine ⟨?_, ?_⟩
    · rw [List.pairwise_append]
      refine ⟨h1, by simp, ?_⟩
      intro x hx y hy
      rw [List.mem_singleton.mp hy]
      rcases List.mem_append.mp hx with hx | hx
      · exact (List.pairwise_append.mp h1).2.2 x hx p (by simp)
      · rw [List.mem_singleton.mp hx]; exact Or.inl ⟨rfl, rfl⟩
    · intro x hx
      rcases List.mem_append.mp hx with hx | hx
      · exact h2 x hx
      · rw [List.mem_singleton.mp hx]
        obtain ⟨q, hq, e⟩ := h2 p (by simp)
        exact ⟨q, hq, e⟩

theorem describes_bd {enc s a p} (h : Describes enc s a p) : Bd s p.start ∧ Bd s p.stop ∧ p.start ≤ p.stop ∧
    (a.line, a.start) = pos enc s p.start := by
  obtain ⟨pre, mid, post, e, e1, e2, e3, _⟩ := h
  refine ⟨⟨pre, mid ++ post, by rw [e, List.append_assoc], e1⟩, ⟨_, post, e, e2⟩, ?_, ?_⟩
  · rw [e1, e2, len8_append]; omega
  · rw [pos, e3]; rfl

/-- **C45, sorted.** Token positions do not decrease, for all clients. -/
theorem tokens_sorted (enc : Encoding) (m : Bool) (root : Node) (out : List Sem)
    (h : semanticTokens enc m root = some out) :
    (decode (0, 0) out).Pairwise fun a b => a.line < b.line ∨ a.line = b.line ∧ a.start ≤ b.start := by
  obtain ⟨out', E, h1, h2, h3, h4⟩ := tokens_describe_leaves_partial enc m root
  rw [h] at h1; injection h1 with h1; subst h1
  have hp := (stutter_pairwise h2 (wanted_tiles m root)).1
  rw [List.pairwise_iff_getElem] at hp ⊢
  intro i j hi hj hij
  have hd1 := h4 i _ _ (List.getElem?_eq_getElem hi) (List.getElem?_eq_getElem (by omega))
  have hd2 := h4 j _ _ (List.getElem?_eq_getElem hj) (List.getElem?_eq_getElem (by omega))
  obtain ⟨b1, b2, b3, b4⟩ := describes_bd hd1
  obtain ⟨c1, c2, c3, c4⟩ := describes_bd hd2
  have hpq := hp i j (by omega) (by omega) hij
  generalize (decode (0, 0) out)[i] = a at *
  generalize (decode (0, 0) out)[j] = b at *
  generalize E[i] = p at *
  generalize E[j] = q at *
  have l1 := (toLsp_eq enc b1).2
  have l2 := (toLsp_eq enc c1).2
  have x1 := congrArg Prod.fst b4
  have x2 := congrArg Prod.snd b4
  have y1 := congrArg Prod.fst c4
  have y2 := congrArg Prod.snd c4
  simp only at x1 x2 y1 y2
  by_cases heq : p.start = q.start
  · right
    rw [x1, x2, y1, y2, heq]; exact ⟨rfl, Nat.le_refl _⟩
  · have := pos_mono enc b1 c1 (by omega)
    omega

/-- The offset of a UTF-16 position within its line. -/
theorem column_of {s pre post : Text} (h : s = pre ++ post) :
    ∃ A hd t B, At (lines s) A hd t B ∧ pre = A.flatten ++ hd ∧ post = t ++ B.flatten ∧
      A.length = lineNo s (len8 pre) ∧ pos .utf16 s (len8 pre) = (A.length, len16 hd) := by
  obtain ⟨A, hd, t, B, hat, e1, e2⟩ := at_of s pre post h
  have h1 := toLsp_at .utf16 hat
  have h2 := lineOf8 hat
  rw [← len8_append, ← e1] at h1 h2
  refine ⟨A, hd, t, B, hat, e1, e2, h2.symm, ?_⟩
  rw [pos, h1]; rfl

/-- The line of a piece cut out of a line. -/
theorem cut_in_line {s : Text} {p q : Piece} (hq : q ∈ cut s p) :
    ∃ i, i < (lines s).length ∧ startOf s i ≤ q.start ∧ q.start < q.stop ∧ q.stop ≤ startOf s (i + 1) := by
  simp only [cut, List.mem_filterMap, List.mem_range] at hq
  obtain ⟨i, hi, e⟩ := hq
  split at e
  · injection e with e; subst e
    refine ⟨i, hi, ?_, ?_, ?_⟩ <;> simp only <;> omega
  · cases e

/-- A piece that lies in line `i`, described in UTF-16. -/
theorem in_line {s : Text} {a : Abs} {p : Piece} {i : Nat} (h : Describes .utf16 s a p) (hi : i < (lines s).length)
    (h1 : startOf s i ≤ p.start) (h2 : p.start < p.stop) (h3 : p.stop ≤ startOf s (i + 1)) :
    a.line = i ∧ 0 < a.length ∧
      ∃ hd mid tl, (lines s)[i]? = some (hd ++ mid ++ tl) ∧ a.start = len16 hd ∧ a.length = len16 mid ∧
        p.start = startOf s i + len8 hd ∧ p.stop = startOf s i + len8 (hd ++ mid) := by
  obtain ⟨b1, b2, b3, b4⟩ := describes_bd h
  obtain ⟨pre, mid, post, e, e1, e2, e3, e4, _⟩ := h
  obtain ⟨A, hd, t, B, hat, f1, f2, f3, f4⟩ := column_of (s := s) (pre := pre) (post := mid ++ post)
    (by rw [e, List.append_assoc])
  rw [← e1] at f3 f4
  have hA : A.length = i := by
    have g1 := le_lineNo_of hi h1
    have g2 := lineNo_le_of (i := i) (Nat.lt_of_lt_of_le h2 h3)
    omega
  have hpos := Prod.mk.inj (b4.trans f4)
  rw [hpos.1, hpos.2, hA]
  have hmid : mid ≠ [] := by
    rintro rfl
    rw [e1, e2] at h2; simp at h2
  refine ⟨rfl, by rw [e4]; exact len16_pos hmid, ?_⟩
  have hst : startOf s i = len8 A.flatten := by rw [startOf, ← hA, hat.take]
  have hst1 : startOf s (i + 1) = len8 A.flatten + len8 (hd ++ t) := by
    rw [startOf_succ s i hi, hst]
    congr 2
    have hli : (lines s)[i]? = some (hd ++ t) := by rw [hat.eq, ← hA]; simp
    rw [List.getElem?_eq_getElem hi] at hli
    injection hli
  have hlen : len8 mid ≤ len8 t := by
    rw [e2, len8_append, f1, len8_append, hst1, len8_append] at h3
    omega
  have : ∃ tl, t = mid ++ tl := by
    rcases List.append_eq_append_iff.mp f2 with ⟨m, hm, _⟩ | ⟨m, hm, _⟩
    · exact ⟨m, hm⟩
    · refine ⟨[], ?_⟩
      rw [hm, len8_append] at hlen
      have := length_le_len8 m
      have hz : m = [] := List.eq_nil_of_length_eq_zero (by omega)
      rw [hm, hz]; simp
  obtain ⟨tl, ht⟩ := this
  refine ⟨hd, mid, tl, ?_, rfl, e4, ?_, ?_⟩
  · rw [hat.eq, ← hA, ht]; simp
  · rw [e1, f1, len8_append, hst]
  · rw [e2, f1, len8_append, len8_append, len8_append, hst]; omega

theorem wanted_in_line {root : Node} {p : Piece} (hp : p ∈ wanted false root) :
    ∃ i, i < (lines root.text).length ∧ startOf root.text i ≤ p.start ∧ p.start < p.stop ∧
      p.stop ≤ startOf root.text (i + 1) := by
  simp only [wanted, Bool.false_eq_true, if_false, List.mem_flatMap] at hp
  obtain ⟨l, _, hl⟩ := hp
  exact cut_in_line hl

/-- **C45, lines.** For a client without multiline tokens that counts in UTF-16, no token is empty or extends past the
end of its line (line end included). -/
theorem tokens_within_lines (root : Node) (out : List Sem) (h : semanticTokens .utf16 false root = some out)
    (a : Abs) (ha : a ∈ decode (0, 0) out) :
    0 < a.length ∧ ∃ l, (lines root.text)[a.line]? = some l ∧ a.start + a.length ≤ len16 l := by
  obtain ⟨out', E, h1, h2, h3, h4⟩ := tokens_describe_leaves_partial .utf16 false root
  rw [h] at h1; injection h1 with h1; subst h1
  obtain ⟨i, hi, rfl⟩ := List.mem_iff_getElem.mp ha
  have hd := h4 i _ _ (List.getElem?_eq_getElem hi) (List.getElem?_eq_getElem (by omega))
  obtain ⟨q, hq, e1, e2⟩ := (stutter_pairwise h2 (wanted_tiles false root)).2 (E[i]'(by omega)) (List.getElem_mem _)
  obtain ⟨j, g1, g2, g3, g4⟩ := wanted_in_line hq
  obtain ⟨r1, r2, hdd, mid, tl, r3, r4, r5, _⟩ := in_line hd g1 (by omega) (by omega) (by omega)
  refine ⟨r2, _, by rw [r1]; exact r3, ?_⟩
  rw [r4, r5, len16_append, len16_append]; omega

theorem pair_disjoint {root : Node} {a b : Abs} {p q : Piece} (hd1 : Describes .utf16 root.text a p)
    (hd2 : Describes .utf16 root.text b q)
    (hpq : p.start = q.start ∧ p.stop = q.stop ∨ p.stop ≤ q.start)
    (hw1 : ∃ r ∈ wanted false root, p.start = r.start ∧ p.stop = r.stop)
    (hw2 : ∃ r ∈ wanted false root, q.start = r.start ∧ q.stop = r.stop) :
    (a.line = b.line ∧ a.start = b.start ∧ a.length = b.length) ∨
      a.line < b.line ∨ a.line = b.line ∧ a.start + a.length ≤ b.start := by
  obtain ⟨p', hp', e1, e2⟩ := hw1
  obtain ⟨q', hq', e3, e4⟩ := hw2
  obtain ⟨k, g1, g2, g3, g4⟩ := wanted_in_line hp'
  obtain ⟨l, m1, m2, m3, m4⟩ := wanted_in_line hq'
  obtain ⟨r1, r2, x, y, z, r3, r4, r5, r6, r7⟩ := in_line hd1 g1 (by omega) (by omega) (by omega)
  obtain ⟨t1, t2, x', y', z', t3, t4, t5, t6, t7⟩ := in_line hd2 m1 (by omega) (by omega) (by omega)
  rcases hpq with ⟨hs, he⟩ | hle
  · left
    have hkl : k = l := by
      have a1 := le_lineNo_of g1 g2
      have a2 := lineNo_le_of (i := k) (Nat.lt_of_lt_of_le g3 g4)
      have a3 := le_lineNo_of m1 m2
      have a4 := lineNo_le_of (i := l) (Nat.lt_of_lt_of_le m3 m4)
      rw [← e1] at a1 a2; rw [← e3] at a3 a4; rw [hs] at a1 a2
      omega
    subst hkl
    rw [r3] at t3
    injection t3 with t3
    have hx : x = x' := by
      have s1 := splitAtByte_append x (y ++ z)
      have s2 := splitAtByte_append x' (y' ++ z')
      rw [List.append_assoc, List.append_assoc] at t3
      rw [← t3, show len8 x' = len8 x by omega, s1] at s2
      injection s2 with s2; injection s2
    have hy : x ++ y = x' ++ y' := by
      have s1 := splitAtByte_append (x ++ y) z
      have s2 := splitAtByte_append (x' ++ y') z'
      rw [← t3, show len8 (x' ++ y') = len8 (x ++ y) by omega, s1] at s2
      injection s2 with s2; injection s2
    subst hx
    have hy := List.append_cancel_left hy
    subst hy
    exact ⟨by rw [r1, t1], by rw [r4, t4], by rw [r5, t5]⟩
  · right
    rcases Nat.lt_trichotomy k l with hkl | hkl | hkl
    · left; omega
    · right
      subst hkl
      refine ⟨by rw [r1, t1], ?_⟩
      rw [r3] at t3
      injection t3 with t3
      rw [List.append_assoc x' y' z'] at t3
      have : ∃ w, x' = x ++ y ++ w := by
        rcases List.append_eq_append_iff.mp t3 with ⟨w, hw, _⟩ | ⟨w, hw, _⟩
        · exact ⟨w, hw⟩
        · have : len8 (x ++ y) = len8 x' + len8 w := by rw [hw, len8_append]
          have := length_le_len8 w
          have hz : w = [] := List.eq_nil_of_length_eq_zero (by omega)
          subst hz
          exact ⟨[], by simpa using hw.symm⟩
      obtain ⟨w, hw⟩ := this
      rw [r4, r5, t4, hw, len16_append, len16_append]; omega
    · exfalso
      have := startOf_mono root.text (show l + 1 ≤ k by omega)
      omega

/-- **C45, overlaps.** For such a client, two tokens either describe the same stretch or do not overlap. -/
theorem tokens_same_or_disjoint (root : Node) (out : List Sem) (h : semanticTokens .utf16 false root = some out) :
    (decode (0, 0) out).Pairwise fun a b =>
      (a.line = b.line ∧ a.start = b.start ∧ a.length = b.length) ∨
        a.line < b.line ∨ a.line = b.line ∧ a.start + a.length ≤ b.start := by
  obtain ⟨out', E, h1, h2, h3, h4⟩ := tokens_describe_leaves_partial .utf16 false root
  rw [h] at h1; injection h1 with h1; subst h1
  obtain ⟨hp, hw⟩ := stutter_pairwise h2 (wanted_tiles false root)
  rw [List.pairwise_iff_getElem] at hp ⊢
  intro i j hi hj hij
  exact pair_disjoint (h4 i _ _ (List.getElem?_eq_getElem hi) (List.getElem?_eq_getElem (by omega)))
    (h4 j _ _ (List.getElem?_eq_getElem hj) (List.getElem?_eq_getElem (by omega)))
    (hp i j (by omega) (by omega) hij) (hw _ (List.getElem_mem _)) (hw _ (List.getElem_mem _))

/-- At least one token per piece. -/
theorem stutter_length {E D : List Piece} (h : Stutter E D) : D.length ≤ E.length := by
  induction h with
  | nil => exact Nat.le_refl _
  | next p _ ih => simp; exact ih
  | again p tag _ ih => simp at *; omega

/-- Every leaf is described: nothing of the document is left out. -/
theorem stutter_mem {E D : List Piece} (h : Stutter E D) : ∀ p ∈ D, p ∈ E := by
  induction h with
  | nil => intro p hp; cases hp
  | next q _ ih =>
    intro p hp
    rcases List.mem_append.mp hp with hp | hp
    · exact List.mem_append_left _ (ih p hp)
    · exact List.mem_append_right _ hp
  | again q tag _ ih => intro p hp; exact List.mem_append_left _ (ih p hp)

/-- **C45, complete.** Every leaf has its token, with its own tag. -/
theorem every_leaf_has_token (enc : Encoding) (m : Bool) (root : Node) (out : List Sem)
    (h : semanticTokens enc m root = some out) (p : Piece) (hp : p ∈ wanted m root) :
    ∃ a ∈ decode (0, 0) out, Describes enc root.text a p := by
  obtain ⟨out', E, h1, h2, h3, h4⟩ := tokens_describe_leaves_partial enc m root
  rw [h] at h1; injection h1 with h1; subst h1
  obtain ⟨i, hi, e⟩ := List.mem_iff_getElem.mp (stutter_mem h2 p hp)
  have hi' : i < (decode (0, 0) out).length := by omega
  exact ⟨(decode (0, 0) out)[i], List.getElem_mem _, h4 i _ _ (List.getElem?_eq_getElem hi')
    (by rw [List.getElem?_eq_getElem hi, e])⟩

/-! ## What is wrong -/

/-- A heading `= T`: marker, space and a body of one piece of text. -/
def heading : Node :=
  .inner (some ⟨3, 0⟩) [.leaf "=".toList ⟨1, 0⟩, .leaf " ".toList ⟨0, 0⟩, .inner none [.leaf "T".toList ⟨0, 0⟩]]

/-- The text of a heading gets two tokens at one place, for clients that do not support overlapping tokens as well:
`allow_overlapping_token` is not consulted. -/
theorem heading_tokens_overlap :
    semanticTokens .utf16 false heading =
      some [⟨0, 0, 1, ⟨1, 0⟩⟩, ⟨0, 1, 1, ⟨0, 0⟩⟩, ⟨0, 1, 1, ⟨0, 0⟩⟩, ⟨0, 0, 1, ⟨3, 0⟩⟩] ∧
    (semanticTokens .utf16 false heading).map (decode (0, 0)) =
      some [⟨0, 0, 1, ⟨1, 0⟩⟩, ⟨0, 1, 1, ⟨0, 0⟩⟩, ⟨0, 2, 1, ⟨0, 0⟩⟩, ⟨0, 2, 1, ⟨3, 0⟩⟩] := by decide

/-- With UTF-8, columns are characters and lengths are bytes: the token of `é` covers the one after it. -/
theorem utf8_tokens_overlap :
    (semanticTokens .utf8 false (.inner none [.leaf "é".toList ⟨0, 0⟩, .leaf "*".toList ⟨1, 0⟩])).map (decode (0, 0)) =
      some [⟨0, 0, 2, ⟨0, 0⟩⟩, ⟨0, 1, 1, ⟨1, 0⟩⟩] := by decide

/-! ## Cases -/

/-- A leaf over three lines, and a raw node with its own tag. -/
def sample : Node :=
  .inner none [.leaf "/*a\r\n𝄩b\n*/".toList ⟨4, 0⟩, .leaf "\n\n".toList ⟨0, 0⟩,
    .inner (some ⟨5, 0⟩) [.leaf "`".toList ⟨5, 0⟩, .leaf "x".toList ⟨0, 0⟩, .leaf "`".toList ⟨5, 0⟩]]

example : (semanticTokens .utf16 false sample).map (decode (0, 0)) =
    some [⟨0, 0, 5, ⟨4, 0⟩⟩, ⟨1, 0, 4, ⟨4, 0⟩⟩, ⟨2, 0, 2, ⟨4, 0⟩⟩, ⟨2, 2, 1, ⟨0, 0⟩⟩, ⟨3, 0, 1, ⟨0, 0⟩⟩,
      ⟨4, 0, 1, ⟨5, 0⟩⟩, ⟨4, 1, 1, ⟨0, 0⟩⟩, ⟨4, 2, 1, ⟨5, 0⟩⟩] := by decide +kernel

example : (semanticTokens .utf16 true sample).map (decode (0, 0)) =
    some [⟨0, 0, 11, ⟨4, 0⟩⟩, ⟨2, 2, 2, ⟨0, 0⟩⟩, ⟨4, 0, 1, ⟨5, 0⟩⟩, ⟨4, 1, 1, ⟨0, 0⟩⟩, ⟨4, 2, 1, ⟨5, 0⟩⟩] := by
  decide +kernel

end Tinymist.Tokens
