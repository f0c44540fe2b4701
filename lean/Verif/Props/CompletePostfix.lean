import Verif.Spec.CompleteMore
import Verif.Props.Complete
import Verif.Props.CompleteEdits

/-!
Completions behind a dot.
-/
namespace Tinymist.Complete

open Position

theorem occurs_iff (b : Text) : occurs nodeWord b = true ↔ ForNode b := by
  have key : ∀ w s : Text, occurs w s = true ↔ ∃ x y, s = x ++ w ++ y := by
    intro w s
    induction s with
    | nil =>
      rw [occurs, List.isEmpty_iff]
      constructor
      · rintro rfl; exact ⟨[], [], rfl⟩
      · rintro ⟨x, y, h⟩; simp at h; exact h.2.1
    | cons c s ih =>
      rw [occurs, Bool.or_eq_true, List.isPrefixOf_iff_prefix, ih]
      constructor
      · rintro (⟨y, h⟩ | ⟨x, y, h⟩)
        · exact ⟨[], y, by simpa using h.symm⟩
        · exact ⟨c :: x, y, by rw [h]; rfl⟩
      · rintro ⟨x, y, h⟩
        cases x with
        | nil => exact .inl ⟨y, by simpa using h.symm⟩
        | cons d x =>
          simp at h
          exact .inr ⟨x, y, by rw [h.2]; simp⟩
  exact key _ _

/-! ## Holes -/

theorem holes_hole {s b rest : Text} (seen : Text) (h : hole s = some (b, rest)) :
    holes seen s = (b, seen, rest) :: holes (seen ++ s.take (s.length - rest.length)) rest := by
  rw [holes]
  split
  · rename_i b' r' h'
    rw [h] at h'
    cases h'
    rfl
  · rename_i h'; rw [h] at h'; cases h'

theorem holes_cons {c : Char} {s : Text} (seen : Text) (h : hole (c :: s) = none) :
    holes seen (c :: s) = holes (seen ++ [c]) s := by
  rw [holes]; split
  · rename_i h'; rw [h] at h'; cases h'
  · rfl

theorem holes_nil (seen : Text) : holes seen [] = [] := by
  rw [holes]; split
  · rename_i h'; simp [hole] at h'
  · rfl

theorem hole_calm {c : Char} {t next : Text} (hc : Calm next (c :: t)) : hole (c :: t ++ next) = none := by
  unfold hole
  split
  · rename_i rest h
    simp only [List.cons_append, List.cons.injEq] at h
    exact absurd rfl (hc.1 h.1 '{' rest h.2).2.2
  · rfl

theorem holes_fixed (seen t next : Text) (hc : Calm next t) : holes seen (t ++ next) = holes (seen ++ t) next := by
  induction t generalizing seen with
  | nil => simp
  | cons c t ih =>
    rw [List.cons_append, holes_cons seen (by simpa using hole_calm hc), ih _ hc.2.2]
    simp

/-- The holes of a snippet by its pieces. -/
def gapList (seen : Text) : List Piece → List (Text × Text × Text)
  | [] => []
  | .fixed t :: ps => gapList (seen ++ t) ps
  | .gap b :: ps => (b, seen, source ps) :: gapList (seen ++ (['$', '{'] ++ b ++ ['}'])) ps

theorem source_cons (p : Piece) (ps : List Piece) : source (p :: ps) = p.source ++ source ps := rfl

theorem source_append (ps qs : List Piece) : source (ps ++ qs) = source ps ++ source qs := by
  unfold source; rw [List.flatMap_append]

theorem shown_append (ps qs : List Piece) : shown (ps ++ qs) = shown ps ++ shown qs := by
  unfold shown; rw [List.flatMap_append]

theorem holes_source (seen : Text) (ps : List Piece) (h : Plain ps) : holes seen (source ps) = gapList seen ps := by
  induction ps generalizing seen with
  | nil => exact holes_nil seen
  | cons p ps ih =>
    cases p with
    | fixed t =>
      rw [source_cons]
      exact (holes_fixed seen t _ h.1).trans (ih _ h.2)
    | gap b =>
      have hb : ∀ c ∈ b, c ≠ '}' ∧ c ≠ '\n' :=
        fun c hc => ⟨fun e => (h.1 c hc).1 (.inr (.inr e)), (h.1 c hc).2⟩
      have e : source (.gap b :: ps) = ['$', '{'] ++ b ++ ['}'] ++ source ps := rfl
      rw [e, holes_hole seen (hole_gap hb _), gapList, ih _ h.2]
      congr 3
      rw [List.length_append, Nat.add_sub_cancel, List.take_left]

theorem gapList_fixed (seen : Text) (as ps : List Piece) (ha : ∀ p ∈ as, IsFixed p) :
    gapList seen (as ++ ps) = gapList (seen ++ source as) ps := by
  induction as generalizing seen with
  | nil => simp [source]
  | cons p as ih =>
    cases p with
    | gap b => exact (ha (.gap b) (List.mem_cons_self ..)).elim
    | fixed t =>
      rw [List.cons_append, gapList, ih _ fun p hp => ha p (List.mem_cons_of_mem _ hp), source_cons, ← List.append_assoc]
      rfl

theorem gapList_length (seen : Text) (ps : List Piece) : (gapList seen ps).length = gaps ps := by
  induction ps generalizing seen with
  | nil => rfl
  | cons p ps ih =>
    cases p with
    | fixed t => rw [gapList, ih]; rfl
    | gap b => rw [gapList, List.length_cons, ih]; rfl

theorem plain_append_right {as bs : List Piece} (h : Plain (as ++ bs)) : Plain bs := by
  induction as with
  | nil => exact h
  | cons p as ih => cases p <;> exact ih h.2

theorem source_fixed {as : List Piece} (ha : ∀ p ∈ as, IsFixed p) : source as = shown as := by
  induction as with
  | nil => rfl
  | cons p as ih =>
    cases p with
    | gap b => exact (ha (.gap b) (List.mem_cons_self ..)).elim
    | fixed t =>
      show t ++ source as = t ++ shown as
      rw [ih fun p hp => ha p (List.mem_cons_of_mem _ hp)]

/-! ## The edit at the cursor -/

theorem mainEdit_access {c : Cursor} {pre node mid typed post : Text} (h : Access c pre node mid typed post) (a : Text) :
    mainEdit c a = ⟨c.frm, c.frm + len8 typed, a⟩ := by
  have hc := h.cursor
  rcases h.place with hp | ⟨ho, hl⟩
  · have hs : selected c = none := by
      rw [selected, if_neg (by rw [hp]; simp), if_neg (by rw [hp]; simp), if_neg (by rw [hp]; simp)]
    simp only [mainEdit, hs, hc]
  · by_cases h1 : (c.syn = .callee ∨ c.syn = .varAccess) ∧ c.identLike ∧ c.offset = c.frm
    · have hs : selected c = some .ident := by rw [selected, if_pos h1]
      have hn : ¬ (c.syn ≠ .callee ∧ c.cursor ≠ c.frm + len8 typed ∧ c.argLike = true) := by
        rw [hc]; simp
      simp only [mainEdit, hs, ho, hl]
      rw [if_neg hn]
    · have hs : selected c = none := by
        rw [selected, if_neg h1, if_neg (by omega), if_neg (by omega)]
      simp only [mainEdit, hs, hc]

theorem edited_wrap {c : Cursor} {pre node mid typed post : Text} (h : Access c pre node mid typed post) (b a s : Text) :
    Edited 0 c.text [⟨len8 pre, len8 pre, b⟩, ⟨len8 pre + len8 node, c.frm, a⟩, ⟨c.frm, c.frm + len8 typed, s⟩]
      (pre ++ b ++ node ++ a ++ s ++ post) := by
  have e3 := Edited.edit (len8 pre + len8 node + len8 mid) [] typed post post s [] (.done _ _)
  have e2 := Edited.edit (len8 pre) node mid (typed ++ post) (s ++ post) a _ (by simpa [len8] using e3)
  have e1 := Edited.edit 0 pre [] (node ++ mid ++ (typed ++ post)) (node ++ a ++ (s ++ post)) b _ (by simpa [len8] using e2)
  have hf := h.frm
  rw [len8_append, len8_append] at hf
  rw [h.text, hf]
  simpa [len8] using e1

theorem edited_move {c : Cursor} {pre node mid typed post : Text} (h : Access c pre node mid typed post) (b s : Text) :
    Edited 0 c.text [⟨len8 pre, c.frm, b⟩, ⟨c.frm, c.frm + len8 typed, s⟩] (pre ++ b ++ s ++ post) := by
  have e3 := Edited.edit (len8 pre + len8 (node ++ mid)) [] typed post post s [] (.done _ _)
  have e1 := Edited.edit 0 pre (node ++ mid) (typed ++ post) (s ++ post) b _ (by simpa [len8] using e3)
  have hf := h.frm
  rw [List.append_assoc, len8_append] at hf
  rw [h.text, hf]
  simpa [len8] using e1

/-! ## Postfix snippets -/

/-- **C104.** A postfix snippet whose first hole is for the node: accepting it replaces the node, the dot and what is typed
by the snippet with the node in the hole, and the other hole, if there is one, is a tab stop. -/
theorem postfix_wraps (c : Cursor) (pre node mid typed post label n : Text) (as bs : List Piece)
    (h : Access c pre node mid typed post) (hp : Plain (as ++ .gap n :: bs)) (ha : ∀ p ∈ as, IsFixed p)
    (hn : ForNode n) (hb : gaps bs ≤ 1) :
    ∃ p, parsePostfix (source (as ++ .gap n :: bs)) = .ok (some p) ∧
      Accepted c.text (postfixItem c label (len8 pre) node p) (pre ++ shown as ++ node ++ shown bs ++ post) (stops 1 bs) := by
  refine ⟨⟨source as, none, source bs⟩, ?_, ?_⟩
  · unfold parsePostfix
    rw [holes_source _ _ hp, gapList_fixed _ _ _ ha, gapList]
    dsimp only
    rw [if_neg (by rw [List.length_cons, gapList_length]; omega), if_pos ((occurs_iff n).mpr hn)]
    simp
  · have hpb : Plain bs := (plain_append_right hp).2
    refine ⟨shown bs, ?_, ?_⟩
    · simp only [postfixItem, mainEdit_access h]
      exact snippet_shown_partial bs hpb
    · simp only [postfixItem, mainEdit_access h]
      have := edited_wrap h (source as) [] (shown bs)
      rw [source_fixed ha] at this ⊢
      simpa using this

/-- **C104 (partial: the text of the node has no dollar sign or backslash that means something in a snippet).** A postfix
snippet whose second hole is for the node. -/
theorem postfix_moves_partial (c : Cursor) (pre node mid typed post label g n : Text) (as bs cs : List Piece)
    (h : Access c pre node mid typed post) (hp : Plain (as ++ .gap g :: (bs ++ .gap n :: cs)))
    (hq : Plain (as ++ .gap g :: (bs ++ .fixed node :: cs)))
    (ha : ∀ p ∈ as, IsFixed p) (hb : ∀ p ∈ bs, IsFixed p) (hc : ∀ p ∈ cs, IsFixed p) (hg : ¬ ForNode g) :
    ∃ p, parsePostfix (source (as ++ .gap g :: (bs ++ .gap n :: cs))) = .ok (some p) ∧
      Accepted c.text (postfixItem c label (len8 pre) node p)
        (pre ++ shown as ++ g ++ shown bs ++ node ++ shown cs ++ post) [(1, g)] := by
  have hcs : gapList (source as ++ (['$', '{'] ++ g ++ ['}']) ++ source bs ++ (['$', '{'] ++ n ++ ['}'])) cs = [] := by
    have := gapList_fixed (source as ++ (['$', '{'] ++ g ++ ['}']) ++ source bs ++ (['$', '{'] ++ n ++ ['}'])) cs [] hc
    simpa [gapList] using this
  refine ⟨⟨['$', '{'] ++ g ++ ['}'] ++ source bs, some (source as), source cs⟩, ?_, ?_⟩
  · unfold parsePostfix
    rw [holes_source _ _ hp, gapList_fixed _ _ _ ha, gapList, gapList_fixed _ _ _ hb, gapList, List.nil_append, hcs]
    dsimp only
    have : occurs nodeWord g = false := by
      rw [← Bool.not_eq_true, occurs_iff]; exact hg
    rw [if_neg (by simp), if_neg (by simp [this])]
    simp
  · have hs := snippet_shown_partial _ hq
    have h1 : ∀ xs : List Piece, (∀ p ∈ xs, IsFixed p) → ∀ k ys, stops k (xs ++ ys) = stops k ys := by
      intro xs hx k ys
      induction xs with
      | nil => rfl
      | cons p xs ih =>
        cases p with
        | gap b => exact (hx (.gap b) (List.mem_cons_self ..)).elim
        | fixed t => exact ih fun p hp => hx p (List.mem_cons_of_mem _ hp)
    have h2 : stops 1 (as ++ .gap g :: (bs ++ .fixed node :: cs)) = [(1, g)] := by
      rw [h1 as ha, stops, h1 bs hb, stops]
      have := h1 cs hc 2 []
      rw [List.append_nil] at this
      rw [this]; rfl
    have h3 : source (as ++ .gap g :: (bs ++ .fixed node :: cs)) =
        source as ++ (['$', '{'] ++ g ++ ['}'] ++ source bs) ++ node ++ source cs := by
      rw [source_append, source_cons, source_append, source_cons]
      simp [Piece.source]
    have h4 : shown (as ++ .gap g :: (bs ++ .fixed node :: cs)) = shown as ++ g ++ shown bs ++ node ++ shown cs := by
      rw [shown_append, show ∀ ps, shown (.gap g :: ps) = g ++ shown ps from fun _ => rfl, shown_append,
        show ∀ ps, shown (.fixed node :: ps) = node ++ shown ps from fun _ => rfl]
      simp
    rw [h2, h3, h4] at hs
    refine ⟨shown as ++ g ++ shown bs ++ node ++ shown cs, ?_, ?_⟩
    · simp only [postfixItem, mainEdit_access h]
      exact hs
    · simp only [postfixItem, mainEdit_access h]
      have := edited_move h [] (shown as ++ g ++ shown bs ++ node ++ shown cs)
      simpa using this

/-- Too many holes, or none for the node: the snippet is not offered. -/
theorem postfix_ignored (ps : List Piece) (hp : Plain ps) (h : 2 < gaps ps) : parsePostfix (source ps) = .ok none := by
  unfold parsePostfix
  rw [holes_source _ _ hp]
  dsimp only
  rw [if_pos (by rw [gapList_length]; omega)]

/-- A configured postfix snippet without any hole makes every completion behind a dot panic. -/
theorem postfix_panics (s : Text) (h : '$' ∉ s) : parsePostfix s = .error () := by
  have : ∀ seen s, '$' ∉ s → holes seen s = [] := by
    intro seen s
    induction s generalizing seen with
    | nil => exact fun _ => holes_nil seen
    | cons c s ih =>
      intro h
      rw [holes_cons, ih _ fun hc => h (List.mem_cons_of_mem _ hc)]
      unfold hole
      split
      · rename_i he
        cases he
        exact (h (List.mem_cons_self ..)).elim
      · rfl
  unfold parsePostfix
  rw [this _ _ h]
  rfl

/-! ## Functions -/

/-- **C105.** A function that takes one piece of content is offered behind it, and accepting it writes the call around. -/
theorem ufcs_called (c : Cursor) (pre node mid typed post name : Text) (block ufcs left right : Bool) (f : Takes)
    (h : Access c pre node mid typed post) (hu : ufcs = true) (hf : f.minPos = 1 ∧ f.content = true) :
    ∃ it ∈ ufcsItems c (len8 pre) node name block ufcs left right f, it.label = name ∧
      Accepted c.text it (pre ++ name ++ (if block then node else ['('] ++ node ++ [')']) ++ post) [] := by
  refine ⟨⟨name, none, mainEdit c [], [⟨len8 pre, len8 pre, name ++ if block then [] else ['(']⟩,
    ⟨len8 pre + len8 node, c.frm, if block then [] else [')']⟩]⟩, ?_, rfl, [], ?_, ?_⟩
  · unfold ufcsItems
    simp [hu, hf.1, hf.2]
  · rw [mainEdit_access h]
    exact snippet_shown_partial [] trivial
  · rw [mainEdit_access h]
    have := edited_wrap h (name ++ if block then [] else ['(']) (if block then [] else [')']) []
    cases block <;> simpa using this

/-- **C105 (partial: the node's text means nothing in a snippet).** A function with further parameters is offered so that
they can be filled in before the node. -/
theorem ufcs_left_partial (c : Cursor) (pre node mid typed post name : Text) (block ufcs left right : Bool) (f : Takes)
    (h : Access c pre node mid typed post) (hl : left = true) (hf : 1 ≤ f.minPos ∧ f.content = true)
    (hm : 1 < f.minPos ∨ 0 < f.minNamed) (hn : Calm [] node ∧ Calm [')'] node) :
    ∃ it ∈ ufcsItems c (len8 pre) node name block ufcs left right f, it.label = name ++ ['('] ∧
      Accepted c.text it (pre ++ name ++ (if block then ['(', ')'] ++ node else ['(', ',', ' '] ++ node ++ [')']) ++ post)
        [(1, [])] := by
  refine ⟨⟨name ++ ['('], none,
    mainEdit c (if block then ['(', '$', '{', '}', ')'] ++ node else ['$', '{', '}', ',', ' '] ++ node ++ [')']),
    [⟨len8 pre, c.frm, name ++ if block then [] else ['(']⟩]⟩, ?_, rfl,
    if block then ['(', ')'] ++ node else [',', ' '] ++ node ++ [')'], ?_, ?_⟩
  · unfold ufcsItems
    have : f.minPos ≠ 0 ∧ f.content = true := ⟨by omega, hf.2⟩
    simp [hl, this, hm]
  · rw [mainEdit_access h]
    cases block with
    | true =>
      have := snippet_shown_partial [.fixed ['('], .gap [], .fixed [')'], .fixed node] ?_
      · simpa [source, shown, Piece.source, Piece.shown, stops] using this
      · exact ⟨by simp [Calm], by simp, by simp [Calm], by simpa [source, Piece.source] using hn.1, trivial⟩
    | false =>
      have := snippet_shown_partial [.gap [], .fixed [',', ' '], .fixed node, .fixed [')']] ?_
      · simpa [source, shown, Piece.source, Piece.shown, stops] using this
      · exact ⟨by simp, by simp [Calm], by simpa [source, Piece.source] using hn.2, by simp [Calm], trivial⟩
  · rw [mainEdit_access h]
    have := edited_move h (name ++ if block then [] else ['(']) (if block then ['(', ')'] ++ node else [',', ' '] ++ node ++ [')'])
    cases block <;> simpa using this

/-- **C105.** And so that they can be filled in behind the node. -/
theorem ufcs_right (c : Cursor) (pre node mid typed post name : Text) (block ufcs left right : Bool) (f : Takes)
    (h : Access c pre node mid typed post) (hr : right = true) (hf : 1 ≤ f.minPos ∧ f.content = true)
    (hm : 1 < f.minPos ∨ 0 < f.minNamed) :
    ∃ it ∈ ufcsItems c (len8 pre) node name block ufcs left right f, it.label = name ++ [')'] ∧
      Accepted c.text it (pre ++ name ++ ['('] ++ node ++ [')'] ++ post) [(1, [])] := by
  refine ⟨⟨name ++ [')'], none, mainEdit c ['$', '{', '}', ')'],
    [⟨len8 pre, len8 pre, name ++ ['(']⟩, ⟨len8 pre + len8 node, c.frm, []⟩]⟩, ?_, rfl, [')'], ?_, ?_⟩
  · unfold ufcsItems
    have : f.minPos ≠ 0 ∧ f.content = true := ⟨by omega, hf.2⟩
    simp [hr, this, hm]
  · rw [mainEdit_access h]
    have := snippet_shown_partial [.gap [], .fixed [')']] ⟨by simp, by simp [Calm], trivial⟩
    simpa [source, shown, Piece.source, Piece.shown, stops] using this
  · rw [mainEdit_access h]
    have := edited_wrap h (name ++ ['(']) [] [')']
    simpa using this

/-- **C105.** Nothing else is offered: every offered item is one of these three, and only functions whose next argument
is content are offered. -/
theorem ufcs_only (c : Cursor) (start : Nat) (node name : Text) (block ufcs left right : Bool) (f : Takes) (it : Item)
    (h : it ∈ ufcsItems c start node name block ufcs left right f) :
    1 ≤ f.minPos ∧ f.content = true ∧
      (it.label = name ∧ ufcs = true ∧ f.minPos = 1 ∨
        (it.label = name ++ ['('] ∧ left = true ∨ it.label = name ++ [')'] ∧ right = true) ∧
          (1 < f.minPos ∨ 0 < f.minNamed)) := by
  unfold ufcsItems at h
  dsimp only at h
  split at h
  · cases h
  · rename_i hf
    have h1 : 1 ≤ f.minPos := by omega
    have h2 : f.content = true := by
      cases hc : f.content
      · exact absurd (.inr hc) hf
      · rfl
    refine ⟨h1, h2, ?_⟩
    rcases List.mem_append.mp h with h | h
    · rcases List.mem_append.mp h with h | h
      · split at h
        · rename_i hc
          rw [List.mem_singleton] at h
          exact .inl ⟨by rw [h], hc.1, hc.2⟩
        · cases h
      · split at h
        · rename_i hc
          rw [List.mem_singleton] at h
          exact .inr ⟨.inl ⟨by rw [h], hc.1⟩, by simpa using hc.2⟩
        · cases h
    · split at h
      · rename_i hc
        rw [List.mem_singleton] at h
        exact .inr ⟨.inr ⟨by rw [h], hc.1⟩, by simpa using hc.2⟩
      · cases h

theorem takes_fold (sigs : List (Nat × Nat × Bool)) (a : Takes) : ∃ r,
    sigs.foldl takesStep (some a) = some r ∧
    (r.minPos ≤ a.minPos ∧ ∀ s ∈ sigs, r.minPos ≤ s.1) ∧ (r.minPos = a.minPos ∨ ∃ s ∈ sigs, r.minPos = s.1) ∧
    (r.minNamed ≤ a.minNamed ∧ ∀ s ∈ sigs, r.minNamed ≤ s.2.1) ∧
    (r.minNamed = a.minNamed ∨ ∃ s ∈ sigs, r.minNamed = s.2.1) ∧
    (r.content = true ↔ a.content = true ∨ ∃ s ∈ sigs, s.2.2 = true) := by
  induction sigs generalizing a with
  | nil => exact ⟨a, rfl, by simp⟩
  | cons s sigs ih =>
    obtain ⟨r, h0, ⟨h1, h2⟩, h3, ⟨h4, h5⟩, h6, h7⟩ := ih ⟨min a.minPos s.1, min a.minNamed s.2.1, a.content || s.2.2⟩
    dsimp only at *
    have m1 := Nat.min_le_left a.minPos s.1
    have m2 := Nat.min_le_right a.minPos s.1
    have m3 := Nat.min_le_left a.minNamed s.2.1
    have m4 := Nat.min_le_right a.minNamed s.2.1
    refine ⟨r, h0, ⟨Nat.le_trans h1 m1, ?_⟩, ?_, ⟨Nat.le_trans h4 m3, ?_⟩, ?_, ?_⟩
    · intro t ht
      rcases List.mem_cons.mp ht with rfl | ht
      · exact Nat.le_trans h1 m2
      · exact h2 t ht
    · rcases h3 with h3 | ⟨t, ht, h3⟩
      · rcases Nat.le_total a.minPos s.1 with hl | hl
        · exact .inl (h3.trans (Nat.min_eq_left hl))
        · exact .inr ⟨s, List.mem_cons_self .., h3.trans (Nat.min_eq_right hl)⟩
      · exact .inr ⟨t, List.mem_cons_of_mem _ ht, h3⟩
    · intro t ht
      rcases List.mem_cons.mp ht with rfl | ht
      · exact Nat.le_trans h4 m4
      · exact h5 t ht
    · rcases h6 with h6 | ⟨t, ht, h6⟩
      · rcases Nat.le_total a.minNamed s.2.1 with hl | hl
        · exact .inl (h6.trans (Nat.min_eq_left hl))
        · exact .inr ⟨s, List.mem_cons_self .., h6.trans (Nat.min_eq_right hl)⟩
      · exact .inr ⟨t, List.mem_cons_of_mem _ ht, h6⟩
    · rw [h7, Bool.or_eq_true]
      simp only [List.mem_cons, exists_eq_or_imp]
      exact or_assoc

/-- **C105.** What is known of a function is the least its signatures take, in whatever order they are looked at. -/
theorem takes_least (sigs : List (Nat × Nat × Bool)) (h : sigs ≠ []) :
    (∀ s ∈ sigs, (takes sigs).minPos ≤ s.1 ∧ (takes sigs).minNamed ≤ s.2.1) ∧
      (∃ s ∈ sigs, (takes sigs).minPos = s.1) ∧ (∃ s ∈ sigs, (takes sigs).minNamed = s.2.1) ∧
      ((takes sigs).content = true ↔ ∃ s ∈ sigs, s.2.2 = true) := by
  cases sigs with
  | nil => exact absurd rfl h
  | cons s sigs =>
    obtain ⟨r, h0, ⟨h1, h2⟩, h3, ⟨h4, h5⟩, h6, h7⟩ := takes_fold sigs ⟨s.1, s.2.1, s.2.2⟩
    have e : takes (s :: sigs) = r := by
      unfold takes
      rw [List.foldl_cons, takesStep, h0]
      rfl
    rw [e]
    dsimp only at *
    refine ⟨?_, ?_, ?_, ?_⟩
    · intro t ht
      rcases List.mem_cons.mp ht with rfl | ht
      · exact ⟨h1, h4⟩
      · exact ⟨h2 t ht, h5 t ht⟩
    · rcases h3 with h3 | ⟨t, ht, h3⟩
      · exact ⟨s, List.mem_cons_self .., h3⟩
      · exact ⟨t, List.mem_cons_of_mem _ ht, h3⟩
    · rcases h6 with h6 | ⟨t, ht, h6⟩
      · exact ⟨s, List.mem_cons_self .., h6⟩
      · exact ⟨t, List.mem_cons_of_mem _ ht, h6⟩
    · rw [h7]
      simp only [List.mem_cons, exists_eq_or_imp]

/-- A type is nothing but symbols, functions, or other values: it is one, or all of its bounds are. -/
inductive OnlyOf (k : KindTy) : KindTy → Prop
  | here : OnlyOf k k
  | bounds {ts : List KindTy} : ts ≠ [] → (∀ t ∈ ts, OnlyOf k t) → OnlyOf k (.bounds ts)

theorem only_checked {k : KindTy} : ∀ {t}, OnlyOf k t → kindCheck t = kindCheck k := by
  intro t h
  induction h with
  | here => rfl
  | @bounds ts hne hall ih =>
    rw [kindCheck]
    generalize (false, false) = acc
    induction ts generalizing acc with
    | nil => exact (hne rfl).elim
    | cons t ts ih2 =>
      rw [kindChecks]
      cases ts with
      | nil => rw [kindChecks]; exact ih t (List.mem_cons_self ..)
      | cons u us =>
        exact ih2 (by simp) (fun x hx => hall x (List.mem_cons_of_mem _ hx)) (fun x hx => ih x (List.mem_cons_of_mem _ hx)) _

/-- **C105**, in part: of a type that is nothing but a symbol, a function or something else it is found out which. Missing:
types with bounds of several kinds (`last_bound_decides`). -/
theorem kind_told_partial {t : KindTy} : (OnlyOf .symbol t → kindCheck t = (true, false)) ∧
    (OnlyOf .func t → kindCheck t = (false, true)) ∧ (OnlyOf .other t → kindCheck t = (false, false)) :=
  ⟨fun h => by rw [only_checked h, kindCheck], fun h => by rw [only_checked h, kindCheck], fun h => by rw [only_checked h, kindCheck]⟩

example : OnlyOf .func (.bounds [.func, .bounds [.func]]) := by
  refine .bounds (by simp) fun t ht => ?_
  simp only [List.mem_cons, List.not_mem_nil, or_false] at ht
  rcases ht with rfl | rfl
  · exact .here
  · exact .bounds (by simp) fun t ht => by cases List.mem_singleton.1 ht; exact .here

/-- The name of a variable that may be a function and something else is offered as a function or not depending on the
order of what it may be. -/
theorem last_bound_decides (ts : List KindTy) (t : KindTy) : kindCheck (.bounds (ts ++ [t])) = kindCheck t := by
  rw [kindCheck]
  generalize (false, false) = acc
  induction ts generalizing acc with
  | nil => rw [List.nil_append, kindChecks, kindChecks]
  | cons u ts ih => rw [List.cons_append, kindChecks, ih]

/-- With the node `$x$` the call is written without a dollar sign: in `$x$.f`, accepting `f(` gives `f(, x$)`. -/
theorem ufcs_dollar_lost : ∃ c : Cursor, Access c ['#'] ['$', 'x', '$'] ['.'] ['f'] [] ∧
    ∃ it ∈ ufcsItems c 1 ['$', 'x', '$'] ['f'] false true true true ⟨2, 0, true⟩, it.label = ['f', '('] ∧
      Accepted c.text it ['#', 'f', '(', ',', ' ', 'x', '$', ')'] [(1, [])] := by
  have h : Access ⟨['#', '$', 'x', '$', '.', 'f'], 5, 6, 5, ['f'], .other, true, false⟩ ['#'] ['$', 'x', '$'] ['.'] ['f'] [] :=
    ⟨rfl, by decide, by decide, .inl rfl⟩
  refine ⟨_, h, ⟨['f', '('], none, ⟨5, 6, ['$', '{', '}', ',', ' ', '$', 'x', '$', ')']⟩, [⟨1, 5, ['f', '(']⟩]⟩, ?_, rfl,
    [',', ' ', 'x', '$', ')'], ?_, ?_⟩
  · decide
  · have e : toLspSnippet ['$', '{', '}', ',', ' ', '$', 'x', '$', ')'] =
        ['$', '{', '1', ':', '}', ',', ' ', '$', 'x', '$', ')'] := by
      unfold toLspSnippet
      rw [number_hole (b := []) (rest := [',', ' ', '$', 'x', '$', ')']) (by decide)]
      simp [number_cons, number_nil, hole, print_unfold, RustNum.digitChar]
    rw [e]
    refine Shows.placeholder ['1'] [] _ _ _ (by decide) (by decide) (by simp) ?_
    refine .char _ _ _ _ (by decide) (by decide) (.char _ _ _ _ (by decide) (by decide) ?_)
    exact .variable 'x' [] ['$', ')'] ['$', ')'] [] (by decide) (by simp) (fun c r h => by
      simp only [List.cons.injEq] at h; rw [← h.1]; decide)
      (.dollar _ _ _ (by simp; decide) (.char _ _ _ _ (by decide) (by decide) .nil))
  · exact edited_move h ['f', '('] [',', ' ', 'x', '$', ')']

/-! ## Cases -/

/-- `x.if` with the cursor at the end. -/
example : ∃ p, parsePostfix "if ${node} { ${} }".toList = .ok (some p) ∧
    Accepted "x.if".toList (postfixItem ⟨"x.if".toList, 2, 4, 2, ['i', 'f'], .varAccess, true, false⟩ ['i', 'f'] 0 ['x'] p)
      "if x {  }".toList [(1, [])] :=
  postfix_wraps ⟨"x.if".toList, 2, 4, 2, ['i', 'f'], .varAccess, true, false⟩ [] ['x'] ['.'] ['i', 'f'] [] _ "node".toList
    [.fixed "if ".toList] [.fixed " { ".toList, .gap [], .fixed " }".toList] ⟨rfl, by decide, by decide, .inr ⟨rfl, rfl⟩⟩
    (plain_of_plainB (by decide)) (by simp [IsFixed]) ⟨[], [], rfl⟩ (by decide)

/-- `x.let` with the cursor at the end. -/
example : ∃ p, parsePostfix "let ${_} = ${node}".toList = .ok (some p) ∧
    Accepted "x.let".toList (postfixItem ⟨"x.let".toList, 2, 5, 2, ['l', 'e', 't'], .varAccess, true, false⟩ ['l', 'e', 't'] 0 ['x'] p)
      "let _ = x".toList [(1, ['_'])] :=
  postfix_moves_partial ⟨"x.let".toList, 2, 5, 2, ['l', 'e', 't'], .varAccess, true, false⟩ [] ['x'] ['.'] ['l', 'e', 't'] [] _
    ['_'] "node".toList [.fixed "let ".toList] [.fixed " = ".toList] [] ⟨rfl, by decide, by decide, .inr ⟨rfl, rfl⟩⟩
    (plain_of_plainB (by decide)) (plain_of_plainB (by decide)) (by simp [IsFixed]) (by simp [IsFixed]) (by simp)
    (by rw [← occurs_iff]; decide)

end Tinymist.Complete
