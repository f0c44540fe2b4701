import Verif.Spec.Highlight
import Verif.Props.Position
/-! Lemmas on document highlight. -/
namespace Tinymist.Highlight
open Position

theorem textAll_append (l r : List Node) : textAll (l ++ r) = textAll l ++ textAll r := by
  induction l with
  | nil => simp [textAll]
  | cons c l ih => simp [textAll, ih]

theorem text_children {n : Node} (h : n.children ≠ []) : text n = textAll n.children := by
  cases n with
  | leaf => simp [Node.children] at h
  | inner => rw [text]; rfl

theorem sub_text {n m : Node} {pre post : Text} (h : Sub n pre m post) : text n = pre ++ text m ++ post := by
  induction h with
  | refl => simp
  | deep n l c r pre m post h _ ih =>
    rw [text_children (by rw [h]; simp), h, textAll_append, textAll, ih]
    simp

theorem holds_sub {n m : Node} {pre post : Text} (h : Holds n pre m post) : Sub n pre m post := by
  induction h with
  | child n l c r h => simpa using Sub.deep n l c r [] c [] h (.refl c)
  | deep n l c r pre m post h _ _ _ ih => exact .deep n l c r pre m post h ih

theorem sub_trans {n m k : Node} {p q p' q' : Text} (h : Sub n p m q) (h' : Sub m p' k q') :
    Sub n (p ++ p') k (q' ++ q) := by
  induction h with
  | refl => simpa using h'
  | deep n l c r pre m post h _ ih =>
    have := Sub.deep n l c r _ k _ h (ih h')
    simpa using this

theorem Parsed.sub {n m : Node} {p q : Text} (h : Parsed n) (hm : Sub n p m q) : Parsed m :=
  ⟨fun _ k _ hk => h.loop _ k _ (sub_trans hm hk), fun _ k _ hk => h.jump _ k _ (sub_trans hm hk)⟩

theorem child_sub {n c : Node} {l r : List Node} (h : n.children = l ++ c :: r) : Sub n (textAll l) c (textAll r) := by
  simpa using Sub.deep n l c r [] c [] h (.refl c)

/-! ## The way from the cursor to the root -/

theorem leafIn_skip (off cursor : Nat) (l cs : List Node) (h : off + len8 (textAll l) < cursor) :
    leafIn off cursor (l ++ cs) = leafIn (off + len8 (textAll l)) cursor cs := by
  induction l generalizing off with
  | nil => simp [textAll, len8]
  | cons d l ih =>
    rw [textAll, len8_append] at h
    rw [List.cons_append, leafIn, if_neg (by omega), ih _ (by omega), textAll, len8_append, Nat.add_assoc]

theorem leaf_child {n c : Node} {l r : List Node} (h : n.children = l ++ c :: r) {off cursor : Nat}
    (h1 : off + len8 (textAll l) < cursor) (h2 : cursor ≤ off + len8 (textAll l) + len8 (text c)) :
    leafBefore off cursor n = (leafBefore (off + len8 (textAll l)) cursor c).map (· ++ [(off, n)]) := by
  cases n with
  | leaf => simp [Node.children] at h
  | inner k cs =>
    simp only [Node.children] at h
    subst h
    rw [leafBefore, if_neg (by simp), leafIn_skip _ _ _ _ h1, leafIn, if_pos (.inl ⟨h1, h2⟩)]

theorem leaf_first {n : Node} {k : Kind} {t : Text} {r : List Node} (h : n.children = .leaf k t :: r) {off cursor : Nat}
    (h1 : off < cursor) (h2 : cursor ≤ off + len8 t) :
    leafBefore off cursor n = some [(off, .leaf k t), (off, n)] := by
  have := leaf_child (l := []) (c := .leaf k t) (by simpa using h) (off := off) (cursor := cursor)
    (by simpa [textAll, len8] using h1) (by simpa [textAll, len8, text] using h2)
  have e : off + len8 (textAll []) = off := by simp [textAll, len8]
  rw [this, e, leafBefore, if_pos h2]
  rfl

theorem leaf_sub {n m : Node} {pre post : Text} (h : Sub n pre m post) {off cursor : Nat}
    (h1 : off + len8 pre < cursor) (h2 : cursor ≤ off + len8 pre + len8 (text m)) :
    ∃ up, leafBefore off cursor n = (leafBefore (off + len8 pre) cursor m).map (· ++ up) := by
  induction h generalizing off with
  | refl n => exact ⟨[], by simp [len8]⟩
  | deep n l c r pre m post h hm ih =>
    rw [len8_append] at h1 h2
    have e := sub_text hm
    have hlen : len8 (text c) = len8 pre + len8 (text m) + len8 post := by rw [e, len8_append, len8_append]
    obtain ⟨up, hu⟩ := ih (off := off + len8 (textAll l)) (by omega) (by omega)
    refine ⟨up ++ [(off, n)], ?_⟩
    rw [leaf_child h (by omega) (by omega), hu, Option.map_map, len8_append, Nat.add_assoc]
    congr 1
    funext x
    simp

theorem leaf_holds {n m : Node} {pre post : Text} (h : Holds n pre m post) {off cursor : Nat}
    (h1 : off + len8 pre < cursor) (h2 : cursor ≤ off + len8 pre + len8 (text m)) :
    ∃ mid, leafBefore off cursor n = (leafBefore (off + len8 pre) cursor m).map (· ++ mid ++ [(off, n)]) ∧
      ∀ y ∈ mid, ¬ Loop y.2 ∧ ¬ Fun y.2 := by
  induction h generalizing off with
  | child n l c r h => exact ⟨[], by simp [leaf_child h h1 h2], by simp⟩
  | deep n l c r pre m post h hl hf hm ih =>
    rw [len8_append] at h1 h2
    have e := sub_text (holds_sub hm)
    have hlen : len8 (text c) = len8 pre + len8 (text m) + len8 post := by rw [e, len8_append, len8_append]
    obtain ⟨mid, hu, hq⟩ := ih (off := off + len8 (textAll l)) (by omega) (by omega)
    refine ⟨mid ++ [(off + len8 (textAll l), c)], ?_, fun y hy => ?_⟩
    · rw [leaf_child h (by omega) (by omega), hu, Option.map_map, len8_append, Nat.add_assoc]
      congr 1
      funext x
      simp
    · rcases List.mem_append.mp hy with hy | hy
      · exact hq y hy
      · rw [List.mem_singleton] at hy
        subst hy
        exact ⟨hl, hf⟩

theorem nearest_skip (a : List (Nat × Node)) (b : List (Nat × Node)) (h : ∀ y ∈ a, ¬ Loop y.2 ∧ ¬ Fun y.2) :
    nearestLoop (a ++ b) = nearestLoop b := by
  induction a with
  | nil => rfl
  | cons x a ih =>
    obtain ⟨hl, hf⟩ := h x (List.mem_cons_self ..)
    rw [List.cons_append, nearestLoop, if_neg (fun hc => hf (hc.symm)), if_neg (show ¬ (_ ∨ _) from hl),
      ih (fun y hy => h y (List.mem_cons_of_mem _ hy))]

/-! ## The search in the loop -/

theorem childrenAt_mem (off : Nat) (cs : List Node) (x : Nat × Node) :
    x ∈ childrenAt off cs ↔ ∃ l c r, cs = l ++ c :: r ∧ x = (off + len8 (textAll l), c) := by
  induction cs generalizing off with
  | nil => simp [childrenAt]
  | cons d cs ih =>
    rw [childrenAt, List.mem_cons, ih]
    constructor
    · rintro (rfl | ⟨l, c, r, rfl, rfl⟩)
      · exact ⟨[], d, cs, rfl, by simp [textAll, len8]⟩
      · exact ⟨d :: l, c, r, rfl, by simp [textAll, len8_append, Nat.add_assoc]⟩
    · rintro ⟨l, c, r, e, rfl⟩
      cases l with
      | nil =>
        simp only [List.nil_append, List.cons.injEq] at e
        left; simp [textAll, len8, e.1]
      | cons d' l =>
        simp only [List.cons_append, List.cons.injEq] at e
        obtain ⟨rfl, rfl⟩ := e
        exact .inr ⟨l, c, r, rfl, by simp [textAll, len8_append, Nat.add_assoc]⟩

theorem exists_mem_cons_iff {A : Type} {p : A → Prop} {a : A} {l : List A} :
    (∃ x ∈ a :: l, p x) ↔ p a ∨ ∃ x ∈ l, p x := by simp

/-- What the search finds below a node of the work list. -/
def Finds (x y : Nat × Node) : Prop :=
  ¬ Loop x.2 ∧ ¬ Fun x.2 ∧ Jump y.2 ∧
    (y = x ∨ ∃ pre post, Holds x.2 pre y.2 post ∧ y.1 = x.1 + len8 pre)

theorem finds_children {x y : Nat × Node} (hl : ¬ Loop x.2) (hf : ¬ Fun x.2) (hj : ¬ Jump x.2) :
    Finds x y ↔ ∃ z ∈ childrenAt x.1 x.2.children, Finds z y := by
  constructor
  · rintro ⟨_, _, hy, rfl | ⟨pre, post, hh, he⟩⟩
    · exact (hj hy).elim
    · obtain ⟨a, m⟩ := y
      simp only at hh he hy
      cases hh with
      | child _ l _ r h =>
        refine ⟨_, (childrenAt_mem _ _ _).mpr ⟨l, m, r, h, rfl⟩, ?_, ?_, hy, .inl (by rw [he])⟩
        · rcases hy with hy | hy <;> simp [Loop, hy]
        · rcases hy with hy | hy <;> simp [Fun, hy]
      | deep _ l c r pre' _ post' h hl' hf' hm =>
        exact ⟨_, (childrenAt_mem _ _ _).mpr ⟨l, c, r, h, rfl⟩, hl', hf', hy, .inr ⟨pre', post', hm, by
          rw [he, len8_append]; simp only; omega⟩⟩
  · rintro ⟨z, hz, hl', hf', hy, hh⟩
    obtain ⟨l, c, r, e, rfl⟩ := (childrenAt_mem _ _ _).mp hz
    refine ⟨hl, hf, hy, .inr ?_⟩
    rcases hh with rfl | ⟨pre, post, hh, he⟩
    · exact ⟨_, _, .child x.2 l c r e, rfl⟩
    · exact ⟨_, _, .deep x.2 l c r pre y.2 post e hl' hf' hh, by rw [he, len8_append]; simp only; omega⟩

theorem no_jump_below {n m : Node} {pre post : Text} (hp : Parsed n) (hj : Jump n) (h : Holds n pre m post) : ¬ Jump m := by
  obtain ⟨k, t, e, hk, _⟩ := hp.jump [] n [] (.refl n) hj
  have leafc : ∀ l c r, n.children = l ++ c :: r → c = .leaf k t := by
    intro l c r h
    rw [e] at h
    cases l with
    | nil => simp at h; exact h.1.symm
    | cons a l => simp at h
  cases h with
  | child _ l _ r h =>
    rw [leafc _ _ _ h]
    rcases hk with rfl | rfl <;> simp [Jump, Node.kind]
  | deep _ l c r pre' _ post' h hl' hf' hm =>
    rw [leafc _ _ _ h] at hm
    cases hm with
    | child _ l _ r h => simp [Node.children] at h
    | deep _ l c r p _ q h => simp [Node.children] at h

theorem check_mem (st : List (Nat × Node)) (hp : ∀ x ∈ st, Parsed x.2) (y : Nat × Node) :
    y ∈ check st ↔ ∃ x ∈ st, Finds x y := by
  fun_induction check st with
  | case1 => simp
  | case2 x rest h ih =>
    rw [ih (fun z hz => hp z (List.mem_cons_of_mem _ hz))]
    have : ¬ Finds x y := by
      rintro ⟨hl, hf, _⟩
      unfold Loop at hl; unfold Fun at hf
      rcases h with h | h | h | h
      · exact hl (.inl h)
      · exact hl (.inr h)
      · exact hf (.inl h)
      · exact hf (.inr h)
    simp [this]
  | case3 x rest h hj ih =>
    have hl : ¬ Loop x.2 := fun hl => h (hl.elim .inl (fun h => .inr (.inl h)))
    have hf : ¬ Fun x.2 := fun hf => h (.inr (.inr hf))
    rw [List.mem_cons, ih (fun z hz => hp z (List.mem_cons_of_mem _ hz)), exists_mem_cons_iff]
    refine or_congr ?_ Iff.rfl
    constructor
    · rintro rfl
      exact ⟨hl, hf, hj, .inl rfl⟩
    · rintro ⟨_, _, hy, rfl | ⟨pre, post, hh, he⟩⟩
      · rfl
      · exact (no_jump_below (hp x (List.mem_cons_self ..)) hj hh hy).elim
  | case4 x rest h hj ih =>
    have hl : ¬ Loop x.2 := fun hl => h (hl.elim .inl (fun h => .inr (.inl h)))
    have hf : ¬ Fun x.2 := fun hf => h (.inr (.inr hf))
    rw [ih, exists_mem_cons_iff, finds_children hl hf hj]
    · simp only [List.mem_append, List.mem_reverse]
      constructor
      · rintro ⟨z, hz | hz, hy⟩
        · exact .inl ⟨z, hz, hy⟩
        · exact .inr ⟨z, hz, hy⟩
      · rintro (⟨z, hz, hy⟩ | ⟨z, hz, hy⟩)
        · exact ⟨z, .inl hz, hy⟩
        · exact ⟨z, .inr hz, hy⟩
    · intro z hz
      rcases List.mem_append.mp hz with hz | hz
      · obtain ⟨l, c, r, e, rfl⟩ := (childrenAt_mem _ _ _).mp (List.mem_reverse.mp hz)
        exact (hp x (List.mem_cons_self ..)).sub (child_sub e)
      · exact hp z (List.mem_cons_of_mem _ hz)

/-! ## In order -/

/-- `x` ends before `y` begins. -/
def Before (x y : Nat × Node) : Prop := x.1 + len8 (text x.2) ≤ y.1

theorem childrenAt_order (off : Nat) (cs : List Node) : (childrenAt off cs).Pairwise Before := by
  induction cs generalizing off with
  | nil => exact .nil
  | cons c cs ih =>
    rw [childrenAt]
    refine .cons (fun z hz => ?_) (ih _)
    obtain ⟨l, d, r, _, rfl⟩ := (childrenAt_mem _ _ _).mp hz
    simp only [Before]
    omega

theorem finds_inside {x y : Nat × Node} (h : Finds x y) :
    x.1 ≤ y.1 ∧ y.1 + len8 (text y.2) ≤ x.1 + len8 (text x.2) := by
  obtain ⟨_, _, _, rfl | ⟨pre, post, hh, he⟩⟩ := h
  · exact ⟨Nat.le_refl _, Nat.le_refl _⟩
  · have := sub_text (holds_sub hh)
    rw [this, len8_append, len8_append]
    omega

theorem check_order (st : List (Nat × Node)) (hp : ∀ x ∈ st, Parsed x.2) (ho : st.Pairwise fun x y => Before y x) :
    (check st).Pairwise fun x y => Before y x := by
  fun_induction check st with
  | case1 => exact .nil
  | case2 x rest h ih =>
    exact ih (fun z hz => hp z (List.mem_cons_of_mem _ hz)) (List.pairwise_cons.mp ho).2
  | case3 x rest h hj ih =>
    refine .cons (fun y hy => ?_) (ih (fun z hz => hp z (List.mem_cons_of_mem _ hz)) (List.pairwise_cons.mp ho).2)
    obtain ⟨z, hz, hf⟩ := (check_mem rest (fun z hz => hp z (List.mem_cons_of_mem _ hz)) y).mp hy
    have h1 := (List.pairwise_cons.mp ho).1 z hz
    have h2 := finds_inside hf
    simp only [Before] at h1 ⊢
    omega
  | case4 x rest h hj ih =>
    refine ih (fun z hz => ?_) ?_
    · rcases List.mem_append.mp hz with hz | hz
      · obtain ⟨l, c, r, e, rfl⟩ := (childrenAt_mem _ _ _).mp (List.mem_reverse.mp hz)
        exact (hp x (List.mem_cons_self ..)).sub (child_sub e)
      · exact hp z (List.mem_cons_of_mem _ hz)
    · rw [List.pairwise_append]
      refine ⟨List.pairwise_reverse.mpr (childrenAt_order _ _), (List.pairwise_cons.mp ho).2, fun a ha b hb => ?_⟩
      obtain ⟨l, c, r, e, rfl⟩ := (childrenAt_mem _ _ _).mp (List.mem_reverse.mp ha)
      have := (List.pairwise_cons.mp ho).1 b hb
      simp only [Before] at this ⊢
      omega

end Tinymist.Highlight
