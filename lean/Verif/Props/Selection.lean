import Verif.Spec.Selection
import Verif.Lemmas.Position
import Verif.Props.Position
/-!
# C73: selection ranges
-/
namespace Tinymist.Selection
open Position

def range (x : Text × Text) : Range := (len8 x.1, len8 x.1 + len8 x.2)

mutual
theorem parts_bounds (pre : Text) (n : Node) : ∀ x ∈ parts pre n, ∃ a c, x.1 = pre ++ a ∧ text n = a ++ x.2 ++ c := by
  cases n with
  | leaf t =>
    intro x hx
    rw [parts, List.mem_singleton] at hx
    subst hx
    exact ⟨[], [], by simp, by simp [text]⟩
  | inner cs =>
    intro x hx
    rw [parts, List.mem_cons] at hx
    rcases hx with rfl | hx
    · exact ⟨[], [], by simp, by simp [text]⟩
    · rw [text]; exact partsAll_bounds pre cs x hx
theorem partsAll_bounds (pre : Text) (cs : List Node) :
    ∀ x ∈ partsAll pre cs, ∃ a c, x.1 = pre ++ a ∧ textAll cs = a ++ x.2 ++ c := by
  cases cs with
  | nil => intro x hx; rw [partsAll] at hx; cases hx
  | cons c cs =>
    intro x hx
    rw [partsAll, List.mem_append] at hx
    rw [textAll]
    rcases hx with hx | hx
    · obtain ⟨a, d, h1, h2⟩ := parts_bounds pre c x hx
      exact ⟨a, d ++ textAll cs, h1, by rw [h2]; simp⟩
    · obtain ⟨a, d, h1, h2⟩ := partsAll_bounds (pre ++ text c) cs x hx
      exact ⟨text c ++ a, d, by rw [h1]; simp, by rw [h2]; simp⟩
end

theorem filter_out {l : List (Text × Text)} {b : Nat} (h : ∀ x ∈ l, ¬ (len8 x.1 ≤ b ∧ b < len8 x.1 + len8 x.2)) :
    l.filter (has b) = [] := by
  rw [List.filter_eq_nil_iff]
  intro x hx
  simp only [has, Bool.and_eq_true, decide_eq_true_eq]
  exact h x hx

theorem parts_out (pre : Text) (n : Node) (b : Nat) (h : ¬ (len8 pre ≤ b ∧ b < len8 pre + len8 (text n))) :
    (parts pre n).filter (has b) = [] := by
  refine filter_out fun x hx => ?_
  obtain ⟨a, c, h1, h2⟩ := parts_bounds pre n x hx
  rw [h1, len8_append]
  rw [h2, len8_append, len8_append] at h
  omega

theorem partsAll_out (pre : Text) (cs : List Node) (b : Nat)
    (h : ¬ (len8 pre ≤ b ∧ b < len8 pre + len8 (textAll cs))) :
    (partsAll pre cs).filter (has b) = [] := by
  refine filter_out fun x hx => ?_
  obtain ⟨a, c, h1, h2⟩ := partsAll_bounds pre cs x hx
  rw [h1, len8_append]
  rw [h2, len8_append, len8_append] at h
  omega

mutual
theorem leafBefore_eq (pre : Text) (n : Node) (b : Nat) (h1 : len8 pre ≤ b) (h2 : b < len8 pre + len8 (text n)) :
    leafBefore (len8 pre) (b + 1) n = some (((parts pre n).filter (has b)).reverse.map range) := by
  cases n with
  | leaf t =>
    rw [text] at h2
    rw [leafBefore, if_pos (by omega), parts]
    simp [has, h1, h2, range]
  | inner cs =>
    rw [text] at h2
    rw [leafBefore, if_neg (by omega), leafIn_eq pre cs b h1 h2, parts]
    simp [has, h1, h2, range]
theorem leafIn_eq (pre : Text) (cs : List Node) (b : Nat) (h1 : len8 pre ≤ b)
    (h2 : b < len8 pre + len8 (textAll cs)) :
    leafIn (len8 pre) (b + 1) cs = some (((partsAll pre cs).filter (has b)).reverse.map range) := by
  cases cs with
  | nil => rw [textAll, len8_nil] at h2; omega
  | cons c cs =>
    rw [textAll, len8_append] at h2
    rw [leafIn, partsAll, List.filter_append]
    by_cases hc : b < len8 pre + len8 (text c)
    · rw [if_pos (Or.inl ⟨by omega, hc⟩), leafBefore_eq pre c b h1 hc,
        partsAll_out (pre ++ text c) cs b (by rw [len8_append]; omega), List.append_nil]
    · have hn : cs.isEmpty = true → textAll cs = [] := by
        intro h; rw [List.isEmpty_iff.mp h, textAll]
      rw [if_neg (by omega), parts_out pre c b (by omega), List.nil_append, ← len8_append]
      exact leafIn_eq (pre ++ text c) cs b (by rw [len8_append]; omega) (by rw [len8_append]; omega)
end

mutual
theorem leafBefore_end (off cursor : Nat) (n : Node) (h : off + len8 (text n) < cursor) :
    leafBefore off cursor n = none := by
  cases n with
  | leaf t => rw [text] at h; rw [leafBefore, if_neg (by omega)]
  | inner cs =>
    rw [text] at h
    rw [leafBefore, if_neg (by omega), leafIn_end off cursor cs h]
    rfl
theorem leafIn_end (off cursor : Nat) (cs : List Node) (h : off + len8 (textAll cs) < cursor) :
    leafIn off cursor cs = none := by
  cases cs with
  | nil => rw [leafIn]
  | cons c cs =>
    rw [textAll, len8_append] at h
    rw [leafIn, if_neg (by omega)]
    exact leafIn_end _ _ cs (by omega)
end

theorem mapM_some {A B : Type} (f : A → Option B) (l : List A) (h : ∀ a ∈ l, ∃ b, f a = some b) :
    ∃ r, l.mapM f = some r ∧ r.length = l.length ∧ ∀ (i : Nat) a b, l[i]? = some a → r[i]? = some b → f a = some b := by
  induction l with
  | nil => exact ⟨[], rfl, rfl, fun i a b h => by simp at h⟩
  | cons x l ih =>
    obtain ⟨y, hy⟩ := h x (List.mem_cons_self ..)
    obtain ⟨r, hr, hl, hi⟩ := ih (fun a ha => h a (List.mem_cons_of_mem _ ha))
    refine ⟨y :: r, by simp [List.mapM_cons, hy, hr], by simp [hl], fun i a b ha hb => ?_⟩
    cases i with
    | zero => simp at ha hb; subst ha hb; exact hy
    | succ i => simp at ha hb; exact hi i a b ha hb

theorem mapM_none {A B : Type} (f : A → Option B) (l : List A) (h : ∃ a ∈ l, f a = none) : l.mapM f = none := by
  induction l with
  | nil => obtain ⟨a, ha, _⟩ := h; cases ha
  | cons x l ih =>
    rw [List.mapM_cons]
    cases hx : f x with
    | none => rfl
    | some y =>
      obtain ⟨a, ha, hn⟩ := h
      rcases List.mem_cons.mp ha with rfl | ha
      · rw [hx] at hn; cases hn
      · rw [ih ⟨a, ha, hn⟩]; rfl

theorem shown (enc : Encoding) (tree : Node) (x : Text × Text) (hx : x ∈ parts [] tree) :
    ∃ r, toLspRange enc (text tree) (range x) = some r := by
  obtain ⟨a, c, h1, h2⟩ := parts_bounds [] tree x hx
  rw [List.nil_append] at h1
  obtain ⟨l, ch, e1, _⟩ := position_round_trip enc (text tree) x.1 (x.2 ++ c) (by rw [h2, h1]; simp)
  obtain ⟨l', ch', e2, _⟩ := position_round_trip enc (text tree) (x.1 ++ x.2) c (by rw [h2, h1])
  rw [len8_append] at e2
  exact ⟨((l, ch), (l', ch')), by simp only [toLspRange, range, e1, e2]; rfl⟩

/-- Where a position of the client is. -/
theorem pos_place {enc : Encoding} {s post : Text} {p : Nat × Nat} (h : Pos enc s p.1 p.2 post) (hs : Plain enc s) :
    ∃ pre, s = pre ++ post ∧ toTypst enc s p.1 p.2 = some (len8 pre) ∧ toLsp enc s (len8 pre) = some p := by
  obtain ⟨A, hd, t, B, hat, rfl', rfl'', e⟩ := pos_at h hs
  refine ⟨A.flatten ++ hd, ?_, ?_, ?_⟩
  · rw [e, ← flatten_lines s, hat.flatten]; simp
  · have := toTypst_at enc hat
    rw [rfl', rfl''] at this
    rw [len8_append]; exact this
  · have := toLsp_at enc hat
    rw [rfl', rfl''] at this
    rw [len8_append]; exact this

/-- C73: each position in front of some character of the document gets, from the innermost to the outermost, exactly
what surrounds this character in the syntax tree. -/
theorem selection_ranges_partial (enc : Encoding) (tree : Node) (ps : List (Nat × Nat)) (hs : Plain enc (text tree))
    (hps : ∀ p ∈ ps, ∃ c post, Pos enc (text tree) p.1 p.2 (c :: post)) :
    ∃ res, request enc tree ps = some res ∧ res.length = ps.length ∧
      ∀ (i : Nat) p rs, ps[i]? = some p → res[i]? = some rs →
        ∃ pre c post, text tree = pre ++ c :: post ∧ Pos enc (text tree) p.1 p.2 (c :: post) ∧
          rs.length = (around tree (len8 pre)).length ∧
          ∀ (j : Nat) x r, (around tree (len8 pre))[j]? = some x → rs[j]? = some r → Shows enc (text tree) x r := by
  have key : ∀ p ∈ ps, ∃ rs, answer enc tree p = some rs ∧
      ∃ pre c post, text tree = pre ++ c :: post ∧ Pos enc (text tree) p.1 p.2 (c :: post) ∧
          rs.length = (around tree (len8 pre)).length ∧
          ∀ (j : Nat) x r, (around tree (len8 pre))[j]? = some x → rs[j]? = some r → Shows enc (text tree) x r := by
    intro p hp
    obtain ⟨c, post, hpos⟩ := hps p hp
    obtain ⟨pre, e1, e2, _⟩ := pos_place hpos hs
    have hlt : len8 pre < len8 (text tree) := by
      rw [e1, len8_append, len8_cons]; have := c.utf8Size_pos; omega
    have hl := leafBefore_eq [] tree (len8 pre) (by rw [len8_nil]; omega) (by rw [len8_nil]; omega)
    rw [len8_nil] at hl
    obtain ⟨rs, hrs, hlen, hi⟩ := mapM_some (toLspRange enc (text tree)) ((around tree (len8 pre)).map range) (by
      intro y hy
      obtain ⟨x, hx, rfl⟩ := List.mem_map.mp hy
      exact shown enc tree x (List.mem_filter.mp (List.mem_reverse.mp hx)).1)
    refine ⟨rs, ?_, pre, c, post, e1, hpos, by rw [hlen, List.length_map], ?_⟩
    · simp only [answer, e2, hl, Option.bind_eq_bind, Option.bind_some]
      exact hrs
    · intro j x r hx hr
      have := hi j (range x) r (by rw [List.getElem?_map, hx]; rfl) hr
      unfold toLspRange range at this
      cases ha : toLsp enc (text tree) (len8 x.1) with
      | none => simp [ha] at this
      | some a =>
        cases hb : toLsp enc (text tree) (len8 x.1 + len8 x.2) with
        | none => simp [ha, hb] at this
        | some b => simp [ha, hb] at this; subst this; exact ⟨ha, hb⟩
  obtain ⟨res, h1, h2, h3⟩ := mapM_some (answer enc tree) ps (fun p hp => by
    obtain ⟨rs, h, _⟩ := key p hp; exact ⟨rs, h⟩)
  refine ⟨res, h1, h2, fun i p rs hp hr => ?_⟩
  obtain ⟨rs', ha, hk⟩ := key p (List.mem_of_getElem? hp)
  have := h3 i p rs hp hr
  rw [ha] at this
  injection this with this
  subst this
  exact hk

/-! ## What follows for the client -/

/-- `y` is a stretch of `x`. -/
def Inside (y x : Text × Text) : Prop := ∃ a c, y.1 = x.1 ++ a ∧ x.2 = a ++ y.2 ++ c

mutual
theorem parts_nested (pre : Text) (n : Node) (b : Nat) :
    ((parts pre n).filter (has b)).Pairwise (fun x y => Inside y x) := by
  cases n with
  | leaf t =>
    rw [parts]
    exact (List.pairwise_singleton _ _).sublist List.filter_sublist
  | inner cs =>
    rw [parts, List.filter_cons]
    split
    · refine List.pairwise_cons.mpr ⟨fun y hy => ?_, partsAll_nested pre cs b⟩
      exact partsAll_bounds pre cs y (List.mem_filter.mp hy).1
    · exact partsAll_nested pre cs b
theorem partsAll_nested (pre : Text) (cs : List Node) (b : Nat) :
    ((partsAll pre cs).filter (has b)).Pairwise (fun x y => Inside y x) := by
  cases cs with
  | nil => rw [partsAll]; exact List.Pairwise.nil
  | cons c cs =>
    rw [partsAll, List.filter_append]
    by_cases hc : len8 pre ≤ b ∧ b < len8 pre + len8 (text c)
    · rw [partsAll_out (pre ++ text c) cs b (by rw [len8_append]; omega), List.append_nil]
      exact parts_nested pre c b
    · rw [parts_out pre c b hc, List.nil_append]
      exact partsAll_nested (pre ++ text c) cs b
end

theorem shows_upTo {enc : Encoding} {s a d post : Text} {p q : Nat × Nat} (h : s = a ++ d ++ post)
    (hp : toLsp enc s (len8 a) = some p) (hq : toLsp enc s (len8 (a ++ d)) = some q) : upTo p q := by
  by_cases hd : d = []
  · subst hd
    rw [List.append_nil, hp] at hq
    injection hq with hq
    subst hq
    exact Or.inr ⟨rfl, Nat.le_refl _⟩
  · obtain ⟨p', q', h1, h2, h3⟩ := position_monotone enc s a d post h hd
    rw [hp] at h1; rw [hq] at h2
    injection h1 with h1; injection h2 with h2
    subst h1 h2
    rcases h3 with h3 | ⟨h3, h4⟩
    · exact Or.inl h3
    · exact Or.inr ⟨h3, Nat.le_of_lt h4⟩

theorem inside_upTo {enc : Encoding} {tree : Node} {x y : Text × Text} {r r' : (Nat × Nat) × (Nat × Nat)}
    (hx : x ∈ parts [] tree) (h : Inside y x) (hr : Shows enc (text tree) y r) (hr' : Shows enc (text tree) x r') :
    upTo r'.1 r.1 ∧ upTo r.2 r'.2 := by
  obtain ⟨a, c, h1, h2⟩ := parts_bounds [] tree x hx
  rw [List.nil_append] at h1
  obtain ⟨u, v, h3, h4⟩ := h
  constructor
  · refine shows_upTo (s := text tree) (a := x.1) (d := u) (post := y.2 ++ v ++ c) ?_ hr'.1 ?_
    · rw [h2, h1, h4]; simp
    · rw [← h3]; exact hr.1
  · refine shows_upTo (enc := enc) (s := text tree) (a := y.1 ++ y.2) (d := v) (post := c) ?_ ?_ ?_
    · rw [h2, h3, h1, h4]; simp
    · rw [len8_append]; exact hr.2
    · have := hr'.2
      rw [← len8_append, h4] at this
      rw [h3]
      simpa using this

/-- C73: every selection range lies in the next one, the first one contains the position and the character behind it,
and the last one is the whole document. -/
theorem selection_nested_partial (enc : Encoding) (tree : Node) (ps : List (Nat × Nat)) (hs : Plain enc (text tree))
    (hps : ∀ p ∈ ps, ∃ c post, Pos enc (text tree) p.1 p.2 (c :: post)) :
    ∃ res, request enc tree ps = some res ∧ res.length = ps.length ∧
      ∀ (i : Nat) p rs, ps[i]? = some p → res[i]? = some rs →
        (∀ (j : Nat) r r', rs[j]? = some r → rs[j + 1]? = some r' → upTo r'.1 r.1 ∧ upTo r.2 r'.2) ∧
        (∃ r, rs.head? = some r ∧ upTo r.1 p ∧ upTo p r.2 ∧ p ≠ r.2) ∧
        (∃ r, rs.getLast? = some r ∧ r.1 = (0, 0) ∧ toLsp enc (text tree) (len8 (text tree)) = some r.2) := by
  obtain ⟨res, h1, h2, h3⟩ := selection_ranges_partial enc tree ps hs hps
  refine ⟨res, h1, h2, fun i p rs hp hr => ?_⟩
  obtain ⟨pre, c, post, e, hpos, hl, hsh⟩ := h3 i p rs hp hr
  obtain ⟨pre', e', _, hlsp⟩ := pos_place hpos hs
  have hpre : pre = pre' := List.append_cancel_right (e.symm.trans e')
  subst hpre
  have hc := c.utf8Size_pos
  have hlt : len8 pre < len8 (text tree) := by rw [e, len8_append, len8_cons]; omega
  have hmem : ∀ (j : Nat) x, (around tree (len8 pre))[j]? = some x →
      x ∈ parts [] tree ∧ len8 x.1 ≤ len8 pre ∧ len8 pre < len8 x.1 + len8 x.2 := by
    intro j x hx
    have := List.mem_filter.mp (List.mem_reverse.mp (List.mem_of_getElem? hx))
    simpa only [has, Bool.and_eq_true, decide_eq_true_eq] using this
  have hsome : ∀ (j : Nat), j < rs.length → ∃ x r, (around tree (len8 pre))[j]? = some x ∧ rs[j]? = some r ∧
      Shows enc (text tree) x r := by
    intro j hj
    have hj' : j < (around tree (len8 pre)).length := by omega
    exact ⟨_, _, List.getElem?_eq_getElem hj', List.getElem?_eq_getElem hj,
      hsh j _ _ (List.getElem?_eq_getElem hj') (List.getElem?_eq_getElem hj)⟩
  -- the whole document comes last
  have hroot : ∃ l, (parts [] tree).filter (has (len8 pre)) = ([], text tree) :: l := by
    cases tree with
    | leaf t =>
      rw [text] at hlt
      exact ⟨[], by simp [parts, has, text, len8_nil, hlt]⟩
    | inner cs =>
      rw [text] at hlt
      exact ⟨_, by rw [parts, List.filter_cons, if_pos (by simp [has, len8_nil, hlt])]; rfl⟩
  obtain ⟨l, hroot⟩ := hroot
  have hlen : rs.length = l.length + 1 := by rw [hl, around, hroot]; simp
  refine ⟨?_, ?_, ?_⟩
  · intro j r r' hj hj'
    obtain ⟨hlt1, _⟩ := List.getElem?_eq_some_iff.mp hj
    obtain ⟨hlt2, _⟩ := List.getElem?_eq_some_iff.mp hj'
    obtain ⟨x, r0, hx, hr0, hs0⟩ := hsome j hlt1
    obtain ⟨y, r1, hy, hr1, hs1⟩ := hsome (j + 1) hlt2
    rw [hj] at hr0; rw [hj'] at hr1
    injection hr0 with hr0; injection hr1 with hr1
    subst hr0 hr1
    have hpw : (around tree (len8 pre)).Pairwise (fun x y => Inside x y) :=
      List.pairwise_reverse.mpr (parts_nested [] tree (len8 pre))
    obtain ⟨hj1, gx⟩ := List.getElem?_eq_some_iff.mp hx
    obtain ⟨hj2, gy⟩ := List.getElem?_eq_some_iff.mp hy
    have hin := List.pairwise_iff_getElem.mp hpw j (j + 1) hj1 hj2 (Nat.lt_succ_self j)
    rw [gx, gy] at hin
    exact inside_upTo (hmem _ y hy).1 hin hs0 hs1
  · obtain ⟨x, r, hx, hr0, hs0⟩ := hsome 0 (by omega)
    refine ⟨r, by rw [List.head?_eq_getElem?]; exact hr0, ?_⟩
    obtain ⟨hx1, hx2, hx3⟩ := hmem 0 x hx
    obtain ⟨a, d, g1, g2⟩ := parts_bounds [] tree x hx1
    rw [List.nil_append] at g1
    -- `pre` continues `x.1` and ends inside `x.2`
    have hsplit : x.1 ++ (x.2 ++ d) = pre ++ c :: post := by rw [← e, g2, g1]; simp
    have hu : ∃ u, pre = x.1 ++ u := by
      rcases List.append_eq_append_iff.mp hsplit with ⟨u, hu, _⟩ | ⟨u, hu, _⟩
      · exact ⟨u, hu⟩
      · cases u with
        | nil => exact ⟨[], by simpa using hu.symm⟩
        | cons z u =>
          rw [hu, len8_append, len8_cons] at hx2
          have := z.utf8Size_pos
          omega
    obtain ⟨u, hu⟩ := hu
    have hsplit2 : x.2 ++ d = u ++ c :: post := by
      rw [hu, List.append_assoc] at hsplit
      exact List.append_cancel_left hsplit
    have hv : ∃ v, x.2 = u ++ v ∧ v ≠ [] ∧ v ++ d = c :: post := by
      rcases List.append_eq_append_iff.mp hsplit2 with ⟨v, hv, hv2⟩ | ⟨v, hv, hv2⟩
      · rw [hu, hv, len8_append, len8_append] at hx3; omega
      · refine ⟨v, hv, fun h0 => ?_, hv2.symm⟩
        rw [hu, hv, h0, List.append_nil, len8_append] at hx3
        omega
    obtain ⟨v, hv1, hv2, hv3⟩ := hv
    have t1 : text tree = x.1 ++ u ++ (c :: post) := by rw [e, hu]
    have t2 : text tree = pre ++ v ++ d := by rw [e, ← hv3]; simp
    have hend : toLsp enc (text tree) (len8 (pre ++ v)) = some r.2 := by
      have := hs0.2
      rw [← len8_append, hv1, ← List.append_assoc, ← hu] at this
      exact this
    refine ⟨shows_upTo t1 hs0.1 (by rw [← hu]; exact hlsp), shows_upTo t2 hlsp hend, fun hpe => ?_⟩
    rw [hpe] at hlsp
    have := position_injective enc (text tree) pre (c :: post) (pre ++ v) d e (by rw [t2]) (hlsp.trans hend.symm)
    have h0 : v = [] := by
      have := congrArg List.length this
      simp only [List.length_append] at this
      exact List.length_eq_zero_iff.mp (by omega)
    exact hv2 h0
  · obtain ⟨x, r, hx, hr0, hs0⟩ := hsome (rs.length - 1) (by omega)
    refine ⟨r, by rw [List.getLast?_eq_getElem?]; exact hr0, ?_⟩
    have hxe : x = ([], text tree) := by
      rw [around, hroot, List.reverse_cons, hlen, Nat.add_sub_cancel, List.getElem?_append_right (by simp)] at hx
      simpa using hx.symm
    subst hxe
    constructor
    · obtain ⟨A, hd, t, B, hat, e1, _⟩ := at_of (text tree) [] (text tree) rfl
      have h0 := hs0.1
      obtain ⟨hA, hh⟩ := List.append_eq_nil_iff.mp e1.symm
      have := toLsp_at enc hat
      simp only [hA, hh, len8_nil, Nat.add_zero] at this
      simp only [len8_nil] at h0
      rw [this] at h0
      injection h0 with h0
      rw [← h0]
      have hA0 : A = [] := by
        cases A with
        | nil => rfl
        | cons z A =>
          exfalso
          have hz : z = [] := (List.append_eq_nil_iff.mp hA).1
          have hne := full_lines (text tree)
          rw [hat.eq] at hne
          exact hne z (by simp [List.dropLast]) hz
      rw [hA0]
      cases enc <;> rfl
    · have := hs0.2
      simp only [len8_nil, Nat.zero_add] at this
      exact this

/-- C73 fails at the end of the document: the whole request gets no answer, for the other positions neither. -/
theorem end_has_no_answer (enc : Encoding) (tree : Node) (ps : List (Nat × Nat)) (hs : Plain enc (text tree))
    (p : Nat × Nat) (hp : p ∈ ps) (hend : Pos enc (text tree) p.1 p.2 []) : request enc tree ps = none := by
  refine mapM_none _ _ ⟨p, hp, ?_⟩
  obtain ⟨pre, e1, e2, _⟩ := pos_place hend hs
  rw [List.append_nil] at e1
  unfold answer
  rw [e2, Option.bind_eq_bind, Option.bind_some, leafBefore_end 0 _ tree (by rw [e1]; omega)]
  rfl

/-- `= ab` and a line break. -/
private def doc : Node := .inner [.inner [.leaf ['='], .leaf [' '], .inner [.leaf ['a', 'b']]], .leaf ['\n']]

/-- The cursor is between `a` and `b`: the word, the markup around it (the same stretch), the heading, everything. -/
example : request .utf16 doc [(0, 3)] =
    some [[((0, 2), (0, 4)), ((0, 2), (0, 4)), ((0, 0), (0, 4)), ((0, 0), (1, 0))]] := by decide +kernel

/-- The hypotheses. -/
example : Plain .utf16 (text doc) ∧ Pos .utf16 (text doc) 0 3 ['b', '\n'] ∧ Pos .utf16 (text doc) 1 0 [] := by
  refine ⟨⟨by decide, by simp⟩, Pos.here ['=', ' ', 'a'] ['b', '\n'] (by unfold noEol; decide), ?_⟩
  exact Pos.lf ['=', ' ', 'a', 'b'] [] 0 0 [] (by unfold noEol; decide) (Pos.here [] [] (by unfold noEol; decide))

end Tinymist.Selection
