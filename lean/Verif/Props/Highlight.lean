import Verif.Lemmas.Highlight
/-!
# C82: document highlight
-/
namespace Tinymist.Highlight
open Position

/-- The search from the children of a node. -/
theorem finds_in (off : Nat) (n : Node) (y : Nat × Node) :
    (∃ z ∈ childrenAt off n.children, Finds z y) ↔ Jump y.2 ∧ ∃ pre post, Holds n pre y.2 post ∧ y.1 = off + len8 pre := by
  constructor
  · rintro ⟨z, hz, hl', hf', hy, hh⟩
    obtain ⟨l, c, r, e, rfl⟩ := (childrenAt_mem _ _ _).mp hz
    refine ⟨hy, ?_⟩
    rcases hh with rfl | ⟨pre, post, hh, he⟩
    · exact ⟨_, _, .child n l c r e, rfl⟩
    · exact ⟨_, _, .deep n l c r pre y.2 post e hl' hf' hh, by rw [he, len8_append]; simp only; omega⟩
  · rintro ⟨hy, pre, post, hh, he⟩
    obtain ⟨a, m⟩ := y
    simp only at hh he hy
    cases hh with
    | child _ l _ r h =>
      refine ⟨_, (childrenAt_mem _ _ _).mpr ⟨l, m, r, h, rfl⟩, ?_, ?_, hy, .inl (by rw [he])⟩
      · rcases hy with hy | hy <;> simp [Loop, hy]
      · rcases hy with hy | hy <;> simp [Fun, hy]
    | deep _ l c r pre' _ post' h hl' hf' hm =>
      exact ⟨_, (childrenAt_mem _ _ _).mpr ⟨l, c, r, h, rfl⟩, hl', hf', hy, .inr ⟨pre', post', hm, by
        rw [he, len8_append]; simp only; omega⟩⟩

theorem marked_sub {n m : Node} {pre post : Text} (h : Marked n pre m post) : Sub n pre m post := by
  rcases h with ⟨rest, e, rfl, rfl⟩ | ⟨h, _⟩
  · simpa [textAll] using child_sub (l := []) (by simpa using e)
  · exact holds_sub h

/-- A marked node is a word. -/
theorem marked_word {n m : Node} {pre post : Text} (hp : Parsed n) (hn : Loop n) (h : Marked n pre m post) : Word (text m) := by
  rcases h with ⟨rest, e, _, _⟩ | ⟨h, hj⟩
  · obtain ⟨k, t, rest', e', _, hw⟩ := hp.loop [] n [] (.refl n) hn
    rw [e] at e'
    simp only [List.cons.injEq] at e'
    rw [e'.1, text]; exact hw
  · obtain ⟨k, t, e, _, hw⟩ := hp.jump _ _ _ (holds_sub h) hj
    rw [text_children (by rw [e]; simp), e]
    simpa [textAll, text] using hw

/-- The way from a marked node to its loop. -/
theorem mark_path {n m : Node} {pre post : Text} (hp : Parsed n) (hn : Loop n) (h : Marked n pre m post) {off cursor : Nat}
    (h1 : off + len8 pre < cursor) (h2 : cursor ≤ off + len8 pre + len8 (text m)) :
    ∃ x rest, leafBefore off cursor n = some (x :: rest ++ [(off, n)]) ∧ (∀ y ∈ x :: rest, ¬ Loop y.2 ∧ ¬ Fun y.2) ∧
      (x.2.kind = .forKw ∨ x.2.kind = .whileKw ∨ x.2.kind = .breakKw ∨ x.2.kind = .continueKw) := by
  rcases h with ⟨rest, e, rfl, rfl⟩ | ⟨h, hj⟩
  · obtain ⟨k, t, rest', e', hk, hw⟩ := hp.loop [] n [] (.refl n) hn
    rw [e] at e'
    simp only [List.cons.injEq] at e'
    obtain ⟨rfl, rfl⟩ := e'
    simp only [len8_nil, Nat.add_zero, text] at h1 h2
    have := leaf_first e h1 h2
    refine ⟨_, [], this, ?_, ?_⟩
    · intro y hy
      rw [List.mem_singleton] at hy
      subst hy
      rcases hk with rfl | rfl <;> simp [Loop, Fun, Node.kind]
    · rcases hk with rfl | rfl <;> simp [Node.kind]
  · obtain ⟨k, t, e, hk, hw⟩ := hp.jump _ _ _ (holds_sub h) hj
    obtain ⟨mid, hl, hm⟩ := leaf_holds h h1 h2
    have ht : text m = t := by rw [text_children (by rw [e]; simp), e]; simp [textAll, text]
    rw [ht] at h2
    have := leaf_first e h1 h2
    refine ⟨(off + len8 pre, .leaf k t), (off + len8 pre, m) :: mid, by rw [hl, this]; simp, ?_, ?_⟩
    · intro y hy
      rcases List.mem_cons.mp hy with rfl | hy
      · rcases hk with rfl | rfl <;> simp [Loop, Fun, Node.kind]
      · rcases List.mem_cons.mp hy with rfl | hy
        · rcases hj with hj | hj <;> simp [Loop, Fun, hj]
        · exact hm y hy
    · rcases hk with rfl | rfl <;> simp [Node.kind]

/-- The nodes that are marked for a loop. -/
def marks (off : Nat) (n : Node) : List (Nat × Node) :=
  ((childrenAt off n.children).find? fun c => c.2.kind.isKeyword).toList ++ check (childrenAt off n.children).reverse

theorem children_parsed {n : Node} (hp : Parsed n) (off : Nat) : ∀ x ∈ (childrenAt off n.children).reverse, Parsed x.2 := by
  intro x hx
  obtain ⟨l, c, r, e, rfl⟩ := (childrenAt_mem _ _ _).mp (List.mem_reverse.mp hx)
  exact hp.sub (child_sub e)

theorem keyword_eq {n : Node} {off : Nat} {k : Kind} {t : Text} {rest : List Node} (e : n.children = .leaf k t :: rest)
    (hk : k = .forKw ∨ k = .whileKw) :
    ((childrenAt off n.children).find? fun c => c.2.kind.isKeyword) = some (off, .leaf k t) := by
  rw [e, childrenAt, List.find?_cons_of_pos]
  rcases hk with rfl | rfl <;> rfl

theorem marks_mem {n : Node} (hp : Parsed n) (hn : Loop n) (off : Nat) (y : Nat × Node) :
    y ∈ marks off n ↔ ∃ pre post, Marked n pre y.2 post ∧ y.1 = off + len8 pre := by
  obtain ⟨k, t, rest, e, hk, hw⟩ := hp.loop [] n [] (.refl n) hn
  rw [marks, keyword_eq e hk, List.mem_append, check_mem _ (children_parsed hp off)]
  simp only [List.mem_reverse, finds_in, Option.mem_toList, Option.some.injEq]
  constructor
  · rintro (rfl | ⟨hj, pre, post, hh, he⟩)
    · exact ⟨[], textAll rest, .inl ⟨rest, e, rfl, rfl⟩, by simp [len8]⟩
    · exact ⟨pre, post, .inr ⟨hh, hj⟩, he⟩
  · rintro ⟨pre, post, ⟨rest', e', rfl, rfl⟩ | ⟨hh, hj⟩, he⟩
    · left
      rw [e] at e'
      simp only [List.cons.injEq] at e'
      simp only [len8_nil, Nat.add_zero] at he
      exact Prod.ext he.symm e'.1
    · exact .inr ⟨hj, pre, post, hh, he⟩

theorem marks_ends {n : Node} (hp : Parsed n) (hn : Loop n) (off : Nat) :
    ((marks off n).map fun x => x.1 + len8 (text x.2)).Nodup := by
  obtain ⟨k, t, rest, e, hk, hw⟩ := hp.loop [] n [] (.refl n) hn
  have hc := check_order (childrenAt off n.children).reverse (children_parsed hp off)
    (List.pairwise_reverse.mpr (childrenAt_order _ _))
  have pos : ∀ y ∈ check (childrenAt off n.children).reverse, 0 < len8 (text y.2) ∧ off + len8 t ≤ y.1 := by
    intro y hy
    obtain ⟨z, hz, hf⟩ := (check_mem _ (children_parsed hp off) y).mp hy
    have hm : y ∈ marks off n := by rw [marks]; exact List.mem_append_right _ hy
    obtain ⟨pre, post, hmk, _⟩ := (marks_mem hp hn off y).mp hm
    have hw' := marked_word hp hn hmk
    refine ⟨?_, ?_⟩
    · cases ht : text y.2 with
      | nil => exact (hw'.1 ht).elim
      | cons c s => rw [len8_cons]; have := c.utf8Size_pos; omega
    · have hj := hf.2.2.1
      have hz := List.mem_reverse.mp hz
      rw [e, childrenAt, List.mem_cons] at hz
      have hi := finds_inside hf
      rcases hz with rfl | hz
      · rcases hf.2.2.2 with rfl | ⟨pre, post, hh, _⟩
        · rcases hk with rfl | rfl <;> simp [Jump, Node.kind] at hj
        · cases hh with
          | child _ l _ r h => simp [Node.children] at h
          | deep _ l c r p _ q h => simp [Node.children] at h
      · obtain ⟨l, c, r, _, rfl⟩ := (childrenAt_mem _ _ _).mp hz
        simp only [text] at hi
        omega
  rw [marks, keyword_eq e hk, List.map_append, List.nodup_append]
  refine ⟨by simp, ?_, ?_⟩
  · rw [List.nodup_iff_pairwise_ne, List.pairwise_map]
    refine hc.imp_of_mem ?_
    intro a b ha hb hab
    have := (pos a ha).1
    simp only [Before] at hab
    omega
  · intro a ha b hb
    simp only [Option.toList_some, List.map_cons, List.map_nil, List.mem_singleton] at ha
    obtain ⟨y, hy, rfl⟩ := List.mem_map.mp hb
    have := pos y hy
    simp only [text] at ha
    omega

/-- The range of a word is shown as it should be. -/
theorem annotated_shown {enc : Encoding} {doc pre post : Text} {m : Node} (hp : Plain enc doc)
    (e : doc = pre ++ text m ++ post) (hw : Word (text m)) :
    ∃ r, toLspRange enc doc (annotate doc (len8 pre, m)) = some r ∧ ∀ r', Shown enc doc pre (text m) post r' ↔ r' = r := by
  have hs : splitAtByte doc (len8 pre) = some (pre, text m ++ post) := by
    rw [e, List.append_assoc, splitAtByte_append]
  have hend : ∃ l c, toLsp enc doc (len8 pre + len8 (text m)) = some (l, c) ∧ Pos enc doc l c post := by
    rw [← len8_append]
    refine reported_position_is_meant enc doc (pre ++ text m) post e hp ?_
    rintro ⟨h1, _⟩
    rw [List.getLast?_append] at h1
    cases hl : (text m).getLast? with
    | none => exact hw.1 (List.getLast?_eq_none_iff.mp hl)
    | some c =>
      rw [hl] at h1
      simp at h1
      exact (hw.2 c (List.mem_of_getLast? hl)).2.1 h1
  obtain ⟨l2, c2, e2, p2⟩ := hend
  have uniq : ∀ {p q : Text} {a b : Nat × Nat}, doc = p ++ q → Pos enc doc a.1 a.2 q → toLsp enc doc (len8 p) = some b → a = b := by
    intro p q a b hpq hpos hb
    have := (pos_offset (pre := p) hpos hp hpq).2
    rw [this] at hb
    injection hb
  have e2' : toLsp enc doc (len8 (pre ++ text m)) = some (l2, c2) := by rw [len8_append]; exact e2
  by_cases hh : pre.getLast? = some '#'
  · obtain ⟨p, rfl⟩ : ∃ p, pre = p ++ ['#'] := by
      rcases List.eq_nil_or_concat pre with rfl | ⟨p, c, rfl⟩
      · simp at hh
      · rw [List.concat_eq_append] at hh ⊢
        simp at hh
        exact ⟨p, by rw [hh]⟩
    have ed : doc = p ++ ('#' :: text m ++ post) := by rw [e]; simp
    obtain ⟨l1, c1, e1, p1⟩ := reported_position_is_meant enc doc p ('#' :: text m ++ post) ed hp (by simp)
    refine ⟨((l1, c1), (l2, c2)), ?_, fun r' => ?_⟩
    · have hn : len8 (p ++ ['#']) - 1 = len8 p := by rw [len8_append]; simp [len8, Char.utf8Size]
      simp only [toLspRange, annotate, hs, Option.bind_some, hh, if_true, hn, e1, e2]
      rfl
    · constructor
      · intro h
        generalize hq : p ++ ['#'] = q at h
        cases h with
        | hash pre' t post' a b h1 h2 =>
          have : pre' = p := by have := List.append_inj' hq rfl; exact this.1.symm
          subst this
          exact Prod.ext (uniq ed h1 e1) (uniq e h2 e2')
        | plain pre' t post' a b h' h1 h2 => exact (h' (hq ▸ hh)).elim
      · rintro rfl
        exact .hash p (text m) post _ _ p1 p2
  · obtain ⟨l1, c1, e1, p1⟩ := reported_position_is_meant enc doc pre (text m ++ post) (by rw [e]; simp) hp (by
      rintro ⟨_, h2⟩
      cases ht : text m with
      | nil => exact hw.1 ht
      | cons c s =>
        rw [ht] at h2
        simp at h2
        exact (hw.2 c (by rw [ht]; simp)).1 h2)
    refine ⟨((l1, c1), (l2, c2)), ?_, fun r' => ?_⟩
    · simp only [toLspRange, annotate, hs, Option.bind_some, if_neg hh, e1, e2]
      rfl
    · constructor
      · intro h
        cases h with
        | hash pre' t post' a b h1 h2 => simp at hh
        | plain pre' t post' a b h' h1 h2 => exact Prod.ext (uniq (by rw [e]; simp) h1 e1) (uniq e h2 e2')
      · rintro rfl
        exact .plain pre (text m) post _ _ hh p1 p2

theorem mapM_mem {A B : Type} (f : A → Option B) (l : List A) (h : ∀ a ∈ l, ∃ b, f a = some b) :
    ∃ r, l.mapM f = some r ∧ ∀ b, b ∈ r ↔ ∃ a ∈ l, f a = some b := by
  induction l with
  | nil => exact ⟨[], rfl, by simp⟩
  | cons x l ih =>
    obtain ⟨y, hy⟩ := h x (List.mem_cons_self ..)
    obtain ⟨r, hr, hm⟩ := ih (fun a ha => h a (List.mem_cons_of_mem _ ha))
    refine ⟨y :: r, by simp [List.mapM_cons, hy, hr], fun b => ?_⟩
    simp [hm, hy, eq_comm]

theorem mapM_nodup {A B C : Type} (f : A → Option B) (g : A → C) (l : List A) (r : List B) (hr : l.mapM f = some r)
    (hg : (l.map g).Nodup) (hi : ∀ a ∈ l, ∀ b ∈ l, ∀ y, f a = some y → f b = some y → g a = g b) : r.Nodup := by
  induction l generalizing r with
  | nil => simp at hr; subst hr; exact .nil
  | cons x l ih =>
    rw [List.mapM_cons] at hr
    cases hx : f x with
    | none => simp [hx] at hr
    | some y =>
      cases hl : l.mapM f with
      | none => simp [hx, hl] at hr
      | some rs =>
        simp [hx, hl] at hr
        subst hr
        rw [List.map_cons, List.nodup_cons] at hg
        refine List.nodup_cons.mpr ⟨fun hy => ?_, ih rs hl hg.2 fun a ha b hb => hi a (List.mem_cons_of_mem _ ha) b
          (List.mem_cons_of_mem _ hb)⟩
        have hall : ∀ (l : List A) (rs : List B), l.mapM f = some rs → y ∈ rs → ∃ a ∈ l, f a = some y := by
          intro l
          induction l with
          | nil => intro rs h hy; simp at h; subst h; cases hy
          | cons z l ih' =>
            intro rs h hy
            rw [List.mapM_cons] at h
            cases hz : f z with
            | none => simp [hz] at h
            | some w =>
              cases hl' : l.mapM f with
              | none => simp [hz, hl'] at h
              | some rs' =>
                simp [hz, hl'] at h
                subst h
                rcases List.mem_cons.mp hy with rfl | hy
                · exact ⟨z, List.mem_cons_self .., hz⟩
                · obtain ⟨a, ha, hfa⟩ := ih' rs' hl' hy
                  exact ⟨a, List.mem_cons_of_mem _ ha, hfa⟩
        obtain ⟨a, ha, hfa⟩ := hall l rs hl hy
        exact hg.1 (hi x (List.mem_cons_self ..) a (List.mem_cons_of_mem _ ha) y hx hfa ▸ List.mem_map_of_mem ha)

theorem work_mark {doc : Text} {x : Nat × Node} {rest up : List (Nat × Node)} {off : Nat} {n : Node}
    (hx : x.2.kind = .forKw ∨ x.2.kind = .whileKw ∨ x.2.kind = .breakKw ∨ x.2.kind = .continueKw)
    (hr : ∀ y ∈ x :: rest, ¬ Loop y.2 ∧ ¬ Fun y.2) (hn : Loop n) :
    work doc (x :: rest ++ [(off, n)] ++ up) = some ((marks off n).map (annotate doc)) := by
  have hl : nearestLoop (x :: rest ++ [(off, n)] ++ up) = some (off, n) := by
    rw [List.append_assoc, nearest_skip _ _ hr, List.singleton_append, nearestLoop, if_neg, if_pos (show _ ∨ _ from hn)]
    rcases hn with h | h <;> simp [h]
  have : work doc (x :: rest ++ [(off, n)] ++ up) = workLoop doc (x :: rest ++ [(off, n)] ++ up) := by
    rw [List.cons_append, List.cons_append, work]
    rcases hx with h | h | h | h <;> rw [h]
  rw [this, workLoop, hl]
  rfl

/-- **C82, partial.** With the cursor behind a character of a loop's keyword, or of a `break` or `continue` that leaves or
continues this loop, exactly the keyword and all these jumps are marked, each once. So the answer is the same from each of
them. It is partial in that the cursor must not be in front of the first character, see `start_missed`. -/
theorem highlights_partial {enc : Encoding} {root n m : Node} {p q pre post a b : Text} (hr : Parsed root)
    (hp : Plain enc (text root)) (hs : Sub root p n q) (hn : Loop n) (hm : Marked n pre m post) (ht : text m = a ++ b)
    (ha : a ≠ []) {l c : Nat} (hpos : Pos enc (text root) l c (b ++ post ++ q)) :
    ∃ hs, request enc root (l, c) = some hs ∧ hs.Nodup ∧
      ∀ r, r ∈ hs ↔ ∃ pre' m' post', Marked n pre' m' post' ∧ Shown enc (text root) (p ++ pre') (text m') (post' ++ q) r := by
  have hrn := hr.sub hs
  have edoc : ∀ {pre m post}, Marked n pre m post → text root = p ++ pre ++ text m ++ (post ++ q) := by
    intro pre m post h
    rw [sub_text hs, sub_text (marked_sub h)]; simp
  have hcur := (pos_offset (pre := p ++ pre ++ a) hpos hp (by rw [edoc hm, ht]; simp)).1
  have hlen : 0 < len8 a := by
    cases a with
    | nil => exact (ha rfl).elim
    | cons x s => rw [len8_cons]; have := x.utf8Size_pos; omega
  have b1 : 0 + len8 p + len8 pre < len8 (p ++ pre ++ a) := by rw [len8_append, len8_append]; omega
  have b2 : len8 (p ++ pre ++ a) ≤ 0 + len8 p + len8 pre + len8 (text m) := by
    rw [ht, len8_append, len8_append, len8_append]; omega
  have hnt : len8 (text n) = len8 pre + len8 (text m) + len8 post := by
    rw [sub_text (marked_sub hm), len8_append, len8_append]
  obtain ⟨up, hup⟩ := leaf_sub hs (off := 0) (cursor := len8 (p ++ pre ++ a)) (by omega) (by omega)
  obtain ⟨x, rest, hl, hx1, hx2⟩ := mark_path hrn hn hm b1 b2
  rw [hl, Option.map_some] at hup
  have hw := work_mark (doc := text root) (up := up) (off := 0 + len8 p) hx2 hx1 hn
  have key : ∀ y ∈ marks (len8 p) n, ∃ pre' post', Marked n pre' y.2 post' ∧ y = (len8 (p ++ pre'), y.2) := by
    intro y hy
    obtain ⟨pre', post', h1, h2⟩ := (marks_mem hrn hn (len8 p) y).mp hy
    exact ⟨pre', post', h1, Prod.ext (by rw [h2, len8_append]) rfl⟩
  obtain ⟨hs', h1, h2⟩ := mapM_mem (fun y => toLspRange enc (text root) (annotate (text root) y)) (marks (len8 p) n) (by
    intro y hy
    obtain ⟨pre', post', h1, h2⟩ := key y hy
    obtain ⟨r, hr', _⟩ := annotated_shown hp (edoc h1) (marked_word hrn hn h1)
    exact ⟨r, by rw [h2]; exact hr'⟩)
  have hne : (marks (len8 p) n) ≠ [] := by
    obtain ⟨k, t, rest, e, hk, hw⟩ := hrn.loop [] n [] (.refl n) hn
    rw [marks, keyword_eq e hk]
    simp
  refine ⟨hs', ?_, ?_, fun r => ?_⟩
  · rw [Nat.zero_add] at hup hw
    simp only [request, hcur, Option.bind_eq_bind, Option.bind_some, hup, hw]
    rw [if_neg (by simpa using hne), ← h1, List.mapM_map]
    rfl
  · refine mapM_nodup _ (fun x => x.1 + len8 (text x.2)) _ _ h1 (marks_ends hrn hn (len8 p)) ?_
    intro y hy z hz r hry hrz
    obtain ⟨py, qy, my, ey⟩ := key y hy
    obtain ⟨pz, qz, mz, ez⟩ := key z hz
    have ends : ∀ (y : Nat × Node) r, toLspRange enc (text root) (annotate (text root) y) = some r →
        toLsp enc (text root) (y.1 + len8 (text y.2)) = some r.2 := by
      intro y r h
      simp only [toLspRange, annotate] at h
      cases h1 : toLsp enc (text root) (if ((splitAtByte (text root) y.1).bind fun r => r.1.getLast?) = some '#' then y.1 - 1
          else y.1) with
      | none => simp [h1] at h
      | some a =>
        cases h2 : toLsp enc (text root) (y.1 + len8 (text y.2)) with
        | none => simp [h1, h2] at h
        | some b => simp [h1, h2] at h; rw [← h]
    have ey' := ends y r hry
    have ez' := ends z r hrz
    have ly : y.1 + len8 (text y.2) = len8 (p ++ py ++ text y.2) := by rw [ey, len8_append (p ++ py)]
    have lz : z.1 + len8 (text z.2) = len8 (p ++ pz ++ text z.2) := by rw [ez, len8_append (p ++ pz)]
    rw [ly] at ey'
    rw [lz] at ez'
    have := position_injective enc (text root) _ (qy ++ q) _ (qz ++ q) (by rw [edoc my]) (by rw [edoc mz]) (ey'.trans ez'.symm)
    show y.1 + len8 (text y.2) = z.1 + len8 (text z.2)
    rw [ly, lz, this]
  · rw [h2]
    constructor
    · rintro ⟨y, hy, hf⟩
      obtain ⟨pre', post', h1, h2⟩ := key y hy
      obtain ⟨r', e', hiff⟩ := annotated_shown hp (edoc h1) (marked_word hrn hn h1)
      rw [h2] at hf
      rw [e'] at hf
      injection hf with hf
      subst hf
      exact ⟨pre', y.2, post', h1, (hiff _).mpr rfl⟩
    · rintro ⟨pre', m', post', h1, h2⟩
      obtain ⟨r', e', hiff⟩ := annotated_shown hp (edoc h1) (marked_word hrn hn h1)
      obtain rfl := (hiff r).mp h2
      exact ⟨(len8 (p ++ pre'), m'), (marks_mem hrn hn (len8 p) _).mpr ⟨pre', post', h1, by rw [len8_append]⟩, e'⟩

/-- **C82, jumps without a loop.** A `break` or `continue` that is in no loop, or in a function nearer than any loop, gets no
answer. -/
theorem stray_unmarked {enc : Encoding} {root f m : Node} {p q pre post a b : Text} (hr : Parsed root)
    (hp : Plain enc (text root)) (hs : Sub root p f q) (hf : Fun f ∨ (p = [] ∧ q = [] ∧ f = root ∧ ¬ Loop root))
    (hm : Holds f pre m post) (hj : Jump m) (ht : text m = a ++ b) (ha : a ≠ []) {l c : Nat}
    (hpos : Pos enc (text root) l c (b ++ post ++ q)) : request enc root (l, c) = none := by
  have edoc : text root = p ++ pre ++ text m ++ (post ++ q) := by
    rw [sub_text hs, sub_text (holds_sub hm)]; simp
  have hcur := (pos_offset (pre := p ++ pre ++ a) hpos hp (by rw [edoc, ht]; simp)).1
  have hlen : 0 < len8 a := by
    cases a with
    | nil => exact (ha rfl).elim
    | cons x s => rw [len8_cons]; have := x.utf8Size_pos; omega
  have b1 : 0 + len8 p + len8 pre < len8 (p ++ pre ++ a) := by rw [len8_append, len8_append]; omega
  have b2 : len8 (p ++ pre ++ a) ≤ 0 + len8 p + len8 pre + len8 (text m) := by
    rw [ht, len8_append, len8_append, len8_append]; omega
  have hnt : len8 (text f) = len8 pre + len8 (text m) + len8 post := by
    rw [sub_text (holds_sub hm), len8_append, len8_append]
  have hup : ∃ up, leafBefore 0 (len8 (p ++ pre ++ a)) root =
      (leafBefore (0 + len8 p) (len8 (p ++ pre ++ a)) f).map (· ++ up) ∧ (Fun f ∨ up = [] ∧ ¬ Loop f) := by
    rcases hf with hf | ⟨rfl, rfl, rfl, hf⟩
    · obtain ⟨up, hup⟩ := leaf_sub hs (off := 0) (cursor := len8 (p ++ pre ++ a)) (by omega) (by omega)
      exact ⟨up, hup, .inl hf⟩
    · exact ⟨[], by simp [len8], .inr ⟨rfl, hf⟩⟩
  obtain ⟨up, hup, hup2⟩ := hup
  obtain ⟨k, t, e, hk, hw⟩ := (hr.sub hs).jump _ _ _ (holds_sub hm) hj
  obtain ⟨mid, hl, hmid⟩ := leaf_holds hm b1 b2
  have htm : text m = t := by rw [text_children (by rw [e]; simp), e]; simp [textAll, text]
  rw [htm] at b2
  have hleaf := leaf_first e b1 b2
  rw [hl, hleaf, Option.map_some, Option.map_some] at hup
  simp only [request, hcur, Option.bind_eq_bind, Option.bind_some, hup]
  have hnone : ∀ doc x, x.2.kind = .breakKw ∨ x.2.kind = .continueKw → ∀ rest, nearestLoop (x :: rest) = none →
      work doc (x :: rest) = none := by
    intro doc x hx rest h
    rw [work]
    rcases hx with hx | hx <;> rw [hx] <;> simp only [workLoop, h] <;> rfl
  have hnl : nearestLoop ([(0 + len8 p + len8 pre, .leaf k t), (0 + len8 p + len8 pre, m)] ++ mid ++ ([(0 + len8 p, f)] ++ up)) =
      none := by
    rw [nearest_skip]
    · rcases hup2 with hf | ⟨rfl, hf⟩
      · rw [List.singleton_append, nearestLoop, if_pos hf.symm]
      · rw [List.append_nil, nearestLoop]
        by_cases hfu : Fun f
        · rw [if_pos hfu.symm]
        · rw [if_neg (fun h => hfu h.symm), if_neg (show ¬ (_ ∨ _) from hf), nearestLoop]
    · intro y hy
      rcases List.mem_append.mp hy with hy | hy
      · simp only [List.mem_cons, List.not_mem_nil, or_false] at hy
        rcases hy with rfl | rfl
        · rcases hk with rfl | rfl <;> simp [Loop, Fun, Node.kind]
        · rcases hj with hj | hj <;> simp [Loop, Fun, hj]
      · exact hmid y hy
  have hwn : work (text root) ([(0 + len8 p + len8 pre, .leaf k t), (0 + len8 p + len8 pre, m)] ++ mid ++ [(0 + len8 p, f)] ++ up) =
      none := by
    have := hnone (text root) (0 + len8 p + len8 pre, .leaf k t) (by simpa [Node.kind] using hk)
      ((0 + len8 p + len8 pre, m) :: (mid ++ ([(0 + len8 p, f)] ++ up))) (by simpa using hnl)
    simpa using this
  rw [hwn]
  rfl

/-! ## The hypotheses are met, and the cursor in front of a keyword -/

/-- `{for x in y {break}}`. -/
def sample : Node :=
  .inner .other [.leaf .other ['{'], .inner .forLoop [.leaf .forKw ['f', 'o', 'r'], .leaf .other [' ', 'x', ' '], .leaf .otherKw ['i', 'n'],
    .leaf .other [' ', 'y', ' '], .inner .other [.leaf .other ['{'], .inner .loopBreak [.leaf .breakKw ['b', 'r', 'e', 'a', 'k']],
      .leaf .other ['}']]], .leaf .other ['}']]

theorem parsed_intro {n : Node}
    (h1 : Loop n → ∃ k t rest, n.children = .leaf k t :: rest ∧ (k = .forKw ∨ k = .whileKw) ∧ Word t)
    (h2 : Jump n → ∃ k t, n.children = [.leaf k t] ∧ (k = .breakKw ∨ k = .continueKw) ∧ Word t)
    (hc : ∀ c ∈ n.children, Parsed c) : Parsed n := by
  constructor
  · intro pre m post h hl
    cases h with
    | refl => exact h1 hl
    | deep _ l c r pre' _ post' h hm => exact (hc c (by rw [h]; simp)).loop _ _ _ hm hl
  · intro pre m post h hl
    cases h with
    | refl => exact h2 hl
    | deep _ l c r pre' _ post' h hm => exact (hc c (by rw [h]; simp)).jump _ _ _ hm hl

theorem parsed_leaf {k : Kind} {t : Text} (h1 : k ≠ .forLoop ∧ k ≠ .whileLoop) (h2 : k ≠ .loopBreak ∧ k ≠ .loopContinue) :
    Parsed (.leaf k t) :=
  parsed_intro (fun h => by simp [Loop, Node.kind, h1] at h) (fun h => by simp [Jump, Node.kind, h2] at h)
    (by simp [Node.children])

example : Parsed sample := by
  refine parsed_intro (fun h => by simp [Loop, Node.kind, sample] at h) (fun h => by simp [Jump, Node.kind, sample] at h) ?_
  simp only [sample, Node.children, List.mem_cons, List.not_mem_nil, or_false, forall_eq_or_imp, forall_eq]
  refine ⟨parsed_leaf (by decide) (by decide), ?_, parsed_leaf (by decide) (by decide)⟩
  refine parsed_intro (fun _ => ⟨.forKw, _, _, rfl, .inl rfl, by simp [Word]⟩)
    (fun h => by simp [Jump, Node.kind] at h) ?_
  simp only [Node.children, List.mem_cons, List.not_mem_nil, or_false, forall_eq_or_imp, forall_eq]
  refine ⟨parsed_leaf (by decide) (by decide), parsed_leaf (by decide) (by decide), parsed_leaf (by decide) (by decide),
    parsed_leaf (by decide) (by decide), ?_⟩
  refine parsed_intro (fun h => by simp [Loop, Node.kind] at h) (fun h => by simp [Jump, Node.kind] at h) ?_
  simp only [Node.children, List.mem_cons, List.not_mem_nil, or_false, forall_eq_or_imp, forall_eq]
  refine ⟨parsed_leaf (by decide) (by decide), ?_, parsed_leaf (by decide) (by decide)⟩
  refine parsed_intro (fun h => by simp [Loop, Node.kind] at h) (fun _ => ⟨.breakKw, _, rfl, .inl rfl, by simp [Word]⟩) ?_
  simp only [Node.children, List.mem_cons, List.not_mem_nil, or_false, forall_eq]
  exact parsed_leaf (by decide) (by decide)

example : request .utf16 sample (0, 3) = some [((0, 1), (0, 4)), ((0, 13), (0, 18))] := by
  have h1 : toTypst .utf16 (text sample) 0 3 = some 3 := by decide +kernel
  have h2 : leafBefore 0 3 sample = some [(1, .leaf .forKw ['f', 'o', 'r']), (1, sample.children[1]), (0, sample)] := by rfl
  have h3 : work (text sample) [(1, .leaf .forKw ['f', 'o', 'r']), (1, sample.children[1]), (0, sample)] =
      some [(1, 4), (13, 18)] := by
    have hc : check (childrenAt 1 sample.children[1].children).reverse =
        [(13, .inner .loopBreak [.leaf .breakKw ['b', 'r', 'e', 'a', 'k']])] := by
      simp [sample, Node.children, childrenAt, check, Node.kind, text, textAll, len8, Char.utf8Size]
    have hn : nearestLoop [(1, .leaf .forKw ['f', 'o', 'r']), (1, sample.children[1]), (0, sample)] =
      some (1, sample.children[1]) := by rfl
    rw [work]
    simp only [Node.kind, workLoop, hn, Option.bind_eq_bind, Option.bind_some, hc]
    decide +kernel
  simp only [request, h1, h2, h3, Option.bind_eq_bind, Option.bind_some]
  decide +kernel

/-- In front of `break` there is no answer: the token before the cursor is looked at. So the first place of a range that is
marked gives nothing. -/
theorem start_missed : request .utf16 sample (0, 13) = none := by
  have h1 : toTypst .utf16 (text sample) 0 13 = some 13 := by decide +kernel
  have h2 : leafBefore 0 13 sample = some [(12, .leaf .other ['{']), (12, sample.children[1].children[4]),
    (1, sample.children[1]), (0, sample)] := by rfl
  simp only [request, h1, h2, Option.bind_eq_bind, Option.bind_some]
  rfl

end Tinymist.Highlight
