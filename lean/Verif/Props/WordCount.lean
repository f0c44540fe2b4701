import Verif.Spec.WordCount

/-!
# C37: word count
-/

namespace Tinymist.WordCount

theorem step_space {isSpace isCjk c s} (h : kind isSpace isCjk c = .space) :
    step isSpace isCjk s c = (.inSpace, ⟨s.2.words, s.2.chars + 1,
      s.2.spaces + (if s.1 = .inSpace then 0 else 1), s.2.cjkChars⟩) := by
  unfold kind at h
  unfold step
  split at h
  · rename_i h'
    simp only [h', if_true]
    by_cases e : s.1 = .inSpace <;> simp [e]
  · split at h <;> cases h

theorem step_cjk {isSpace isCjk c s} (h : kind isSpace isCjk c = .cjk) :
    step isSpace isCjk s c = (.inCJK, ⟨s.2.words + 1, s.2.chars + 1, s.2.spaces, s.2.cjkChars + 1⟩) := by
  unfold kind at h
  unfold step
  split at h
  · cases h
  · rename_i h1
    split at h
    · rename_i h2
      simp [h1, h2]
    · cases h

theorem step_other {isSpace isCjk c s} (h : kind isSpace isCjk c = .other) :
    step isSpace isCjk s c = (.inNonCJK, ⟨s.2.words + (if s.1 = .inNonCJK then 0 else 1), s.2.chars + 1,
      s.2.spaces, s.2.cjkChars⟩) := by
  unfold kind at h
  unfold step
  split at h
  · cases h
  · rename_i h1
    split at h
    · cases h
    · rename_i h2
      simp only [h1, h2]
      by_cases e : s.1 = .inNonCJK <;> simp [e]

/-- The state belonging to a kind. -/
def stateOf : Kind → State
  | .space => .inSpace
  | .cjk => .inCJK
  | .other => .inNonCJK

theorem stateOf_inj {a b : Kind} (h : stateOf a = stateOf b) : a = b := by
  cases a <;> cases b <;> first | rfl | cases h

/-- One run, entered from a state of another kind. -/
theorem fold_run (isSpace isCjk : Char → Bool) (k : Kind) (r : List Char) (hk : ∀ c ∈ r, kind isSpace isCjk c = k)
    (s : State) (n : Counts) (hne : r ≠ []) :
    r.foldl (step isSpace isCjk) (s, n) = (stateOf k,
      ⟨n.words + (match k with | .space => 0 | .cjk => r.length | .other => if s = .inNonCJK then 0 else 1),
        n.chars + r.length,
        n.spaces + (match k with | .space => if s = .inSpace then 0 else 1 | _ => 0),
        n.cjkChars + (match k with | .cjk => r.length | _ => 0)⟩) := by
  induction r generalizing s n with
  | nil => exact absurd rfl hne
  | cons c r ih =>
    have hc := hk c (by simp)
    rw [List.foldl_cons]
    cases k with
    | space =>
      rw [step_space hc]
      cases r with
      | nil => rfl
      | cons d r =>
        rw [ih (fun c h => hk c (by simp [h])) _ _ (by simp)]
        simp [stateOf]; omega
    | cjk =>
      rw [step_cjk hc]
      cases r with
      | nil => rfl
      | cons d r =>
        rw [ih (fun c h => hk c (by simp [h])) _ _ (by simp)]
        simp [stateOf]; omega
    | other =>
      rw [step_other hc]
      cases r with
      | nil => rfl
      | cons d r =>
        rw [ih (fun c h => hk c (by simp [h])) _ _ (by simp)]
        simp [stateOf]; omega

theorem runsOf_cons (k k' : Kind) (r : List Char) (rs) :
    runsOf k ((k', r) :: rs) = (if k' = k then 1 else 0) + runsOf k rs := by
  unfold runsOf
  rw [List.filter_cons]
  by_cases h : k' = k <;> simp [h]; omega

theorem charsOf_cons (k k' : Kind) (r : List Char) (rs) :
    charsOf k ((k', r) :: rs) = (if k' = k then r.length else 0) + charsOf k rs := by
  unfold charsOf
  rw [List.filter_cons]
  by_cases h : k' = k <;> simp [h]

theorem joined_cons (k : Kind) (r : List Char) (rs) : joined ((k, r) :: rs) = r ++ joined rs := rfl

/-- All runs, from a state that the first run does not continue. -/
theorem fold_runs (isSpace isCjk : Char → Bool) (rs : List (Kind × List Char)) (h : Runs isSpace isCjk rs)
    (s : State) (n : Counts) (hs : ∀ p, rs.head? = some p → stateOf p.1 ≠ s) :
    ((joined rs).foldl (step isSpace isCjk) (s, n)).2 =
      ⟨n.words + charsOf .cjk rs + runsOf .other rs, n.chars + (joined rs).length,
        n.spaces + runsOf .space rs, n.cjkChars + charsOf .cjk rs⟩ := by
  induction h generalizing s n with
  | nil => rfl
  | cons k r rs hne hk hd h ih =>
    rw [joined_cons, List.foldl_append, fold_run isSpace isCjk k r hk s n hne,
      ih _ _ (fun p hp e => hd p hp (stateOf_inj e)), runsOf_cons, charsOf_cons, runsOf_cons, List.length_append]
    have h0 : stateOf k ≠ s := hs (k, r) rfl
    cases k with
    | space =>
      have : s ≠ .inSpace := fun e => h0 e.symm
      simp [this]; omega
    | cjk => simp; omega
    | other =>
      have : s ≠ .inNonCJK := fun e => h0 e.symm
      simp [this]; omega

/-- **C37.** For every text, cut into its maximal runs of white space, of CJK characters and of other characters:
the words are the CJK characters and the runs of other characters; the characters are all of them; the spaces are the
runs of white space other than one at the start. -/
theorem counts_are (isSpace isCjk : Char → Bool) (rs : List (Kind × List Char)) (h : Runs isSpace isCjk rs) :
    count isSpace isCjk (joined rs) =
      ⟨charsOf .cjk rs + runsOf .other rs, (joined rs).length,
        runsOf .space rs - (if (rs.head?.map (·.1)) = some Kind.space then 1 else 0), charsOf .cjk rs⟩ := by
  unfold count
  by_cases hh : rs.head?.map (·.1) = some Kind.space
  · rw [if_pos hh]
    cases h with
    | nil => simp at hh
    | cons k r rs hne hk hd h =>
      simp only [List.head?_cons, Option.map_some, Option.some.injEq] at hh
      subst hh
      rw [joined_cons, List.foldl_append, fold_run isSpace isCjk .space r hk _ _ hne,
        fold_runs isSpace isCjk rs h _ _ (fun p hp e => hd p hp (stateOf_inj e)), runsOf_cons, charsOf_cons,
        runsOf_cons, List.length_append]
      simp
  · rw [if_neg hh, fold_runs isSpace isCjk rs h _ _ ?_]
    · simp
    · intro p hp e
      apply hh
      rw [hp]
      cases hk : p.1 <;> simp_all [stateOf]

/-- Every text can be so cut. -/
theorem runs_exist (isSpace isCjk : Char → Bool) (t : List Char) :
    ∃ rs, Runs isSpace isCjk rs ∧ joined rs = t := by
  induction t with
  | nil => exact ⟨[], .nil, rfl⟩
  | cons c t ih =>
    obtain ⟨rs, h, rfl⟩ := ih
    cases h with
    | nil =>
      exact ⟨[(kind isSpace isCjk c, [c])], .cons _ _ _ (by simp) (by simp) (by simp) .nil, rfl⟩
    | cons k r rs hne hk hd h =>
      by_cases e : kind isSpace isCjk c = k
      · refine ⟨(k, c :: r) :: rs, .cons _ _ _ (by simp) ?_ hd h, rfl⟩
        intro d hd'
        rcases List.mem_cons.mp hd' with rfl | hd'
        · exact e
        · exact hk d hd'
      · refine ⟨(kind isSpace isCjk c, [c]) :: (k, r) :: rs, .cons _ _ _ (by simp) (by simp) ?_
          (.cons k r rs hne hk hd h), rfl⟩
        intro p hp
        simp only [List.head?_cons, Option.some.injEq] at hp
        subst hp
        exact fun e' => e e'.symm

/-- And in one way only. -/
theorem runs_unique (isSpace isCjk : Char → Bool) (rs rs' : List (Kind × List Char)) (h : Runs isSpace isCjk rs)
    (h' : Runs isSpace isCjk rs') (e : joined rs = joined rs') : rs = rs' := by
  have first : ∀ (k : Kind) (r : List Char) (qs : List (Kind × List Char)) (k' : Kind) (r' : List Char)
      (qs' : List (Kind × List Char)), Runs isSpace isCjk ((k, r) :: qs) → Runs isSpace isCjk ((k', r') :: qs') →
      ∀ m, r' = r ++ m → m ++ joined qs' = joined qs → m = [] := by
    intro k r qs k' r' qs' h h' m hm e
    cases m with
    | nil => rfl
    | cons c m =>
      exfalso
      cases h with
      | cons _ _ _ hne hk hd h =>
        cases h' with
        | cons _ _ _ hne' hk' hd' h' =>
          have hkk : k = k' := by
            cases r with
            | nil => exact absurd rfl hne
            | cons a r => rw [← hk a (by simp), hk' a (by rw [hm]; simp)]
          cases h with
          | nil => cases e
          | cons k2 r2 qs hne2 hk2 hd2 h =>
            have hc : c ∈ r2 := by
              cases r2 with
              | nil => exact absurd rfl hne2
              | cons b r2 =>
                rw [joined_cons] at e
                injection e with e _
                simp [e]
            exact hd (k2, r2) rfl (by rw [← hk2 c hc, hkk]; exact (hk' c (by rw [hm]; simp)))
  induction h generalizing rs' with
  | nil =>
    cases h' with
    | nil => rfl
    | cons k r rs hne _ _ _ =>
      cases r with
      | nil => exact absurd rfl hne
      | cons c r => cases e
  | cons k r rs hne hk hd h ih =>
    cases h' with
    | nil =>
      cases r with
      | nil => exact absurd rfl hne
      | cons c r => cases e
    | cons k' r' rs' hne' hk' hd' h' =>
      have H := Runs.cons k r rs hne hk hd h
      have H' := Runs.cons k' r' rs' hne' hk' hd' h'
      rw [joined_cons, joined_cons] at e
      have hr : r = r' := by
        rcases List.append_eq_append_iff.mp e with ⟨m, h1, h2⟩ | ⟨m, h1, h2⟩
        · have := first k r rs k' r' rs' H H' m h1 h2.symm
          subst this; simpa using h1.symm
        · have := first k' r' rs' k r rs H' H m h1 h2.symm
          subst this; simpa using h1
      subst hr
      have hkk : k = k' := by
        cases r with
        | nil => exact absurd rfl hne
        | cons a r => rw [← hk a (by simp), hk' a (by simp)]
      subst hkk
      rw [ih rs' h' (List.append_cancel_left e)]

/-- The text of a frame is that of its pieces in order. -/
theorem exportItems_pieces {is ps} (h : FramePieces is ps) : exportItems is = ps.flatten := by
  induction h with
  | nil => simp [exportItems]
  | text h ih => simp [exportItems, exportItem, ih]
  | other h ih => simp [exportItems, exportItem, ih]
  | @group js qs hint is ps hg h ih1 ih2 =>
    simp only [exportItems, exportItem, ih1, ih2, List.flatten_append]
    cases hint <;> simp

/-- Every frame has its pieces. -/
theorem pieces_exist : ∀ is : List Item, ∃ ps, FramePieces is ps
  | [] => ⟨[], .nil⟩
  | .text t :: is => let ⟨ps, h⟩ := pieces_exist is; ⟨_, .text (t := t) h⟩
  | .other :: is => let ⟨ps, h⟩ := pieces_exist is; ⟨_, .other h⟩
  | .group js hint :: is =>
    let ⟨qs, hg⟩ := pieces_exist js
    let ⟨ps, h⟩ := pieces_exist is
    ⟨_, .group (hint := hint) hg h⟩

theorem exportPages_pieces {fs ps} (h : PagePieces fs ps) : fs.flatMap exportFrame = ps.flatten := by
  induction h with
  | nil => rfl
  | @page f ps fs qs hf h ih =>
    rw [List.flatMap_cons, ih, exportFrame, exportItems_pieces hf]
    cases f.hint <;> simp

theorem exportNodes_pieces {ns ps} (h : NodePieces ns ps) : exportNodes ns = ps.flatten := by
  induction h with
  | nil => simp [exportNodes]
  | tag h ih => simp [exportNodes, exportNode, ih]
  | text h ih => simp [exportNodes, exportNode, ih]
  | element hc h ih1 ih2 => simp [exportNodes, exportNode, ih1, ih2]
  | @frame f qs ns ps hf h ih =>
    simp only [exportNodes, exportNode, ih, exportFrame, exportItems_pieces hf]
    cases f.hint <;> simp

theorem exportText_pieces {d ps} (h : DocPieces d ps) : exportText d = ps.flatten := by
  cases d with
  | paged pages => exact exportPages_pieces h
  | html root => exact exportNodes_pieces h

theorem page_pieces_exist : ∀ fs : List Frame, ∃ ps, PagePieces fs ps
  | [] => ⟨[], .nil⟩
  | f :: fs =>
    let ⟨_, hf⟩ := pieces_exist f.items
    let ⟨_, h⟩ := page_pieces_exist fs
    ⟨_, .page hf h⟩

theorem node_pieces_exist : ∀ ns : List Node, ∃ ps, NodePieces ns ps
  | [] => ⟨[], .nil⟩
  | .tag :: ns => let ⟨_, h⟩ := node_pieces_exist ns; ⟨_, .tag h⟩
  | .text t :: ns => let ⟨_, h⟩ := node_pieces_exist ns; ⟨_, .text (t := t) h⟩
  | .element cs :: ns =>
    let ⟨_, hc⟩ := node_pieces_exist cs
    let ⟨_, h⟩ := node_pieces_exist ns
    ⟨_, .element hc h⟩
  | .frame f :: ns =>
    let ⟨_, hf⟩ := pieces_exist f.items
    let ⟨_, h⟩ := node_pieces_exist ns
    ⟨_, .frame hf h⟩

/-- Every document has its pieces. -/
theorem doc_pieces_exist (d : Doc) : ∃ ps, DocPieces d ps := by
  cases d with
  | paged pages => exact page_pieces_exist pages
  | html root => exact node_pieces_exist root

/-- **C37, for documents.** The words of a document are those of its pieces of text joined in order: the CJK
characters and the runs of other characters, wherever pages, groups and text runs begin and end. -/
theorem word_count_is (isSpace isCjk : Char → Bool) (d : Doc) (ps : List (List Char)) (h : DocPieces d ps)
    (rs : List (Kind × List Char)) (hr : Runs isSpace isCjk rs) (hj : joined rs = ps.flatten) :
    wordCount isSpace isCjk d =
      ⟨charsOf .cjk rs + runsOf .other rs, ps.flatten.length,
        runsOf .space rs - (if (rs.head?.map (·.1)) = some Kind.space then 1 else 0), charsOf .cjk rs⟩ := by
  rw [wordCount, exportText_pieces h, ← hj]
  exact counts_are isSpace isCjk rs hr

/-- **C37, layout.** Documents whose pieces join to the same text have the same count. -/
theorem layout_irrelevant (isSpace isCjk : Char → Bool) (d e : Doc) (ps qs : List (List Char))
    (hd : DocPieces d ps) (he : DocPieces e qs) (h : ps.flatten = qs.flatten) :
    wordCount isSpace isCjk d = wordCount isSpace isCjk e := by
  rw [wordCount, wordCount, exportText_pieces hd, exportText_pieces he, h]

/-- Meets the hypotheses: a word cut over two groups, and a page break. -/
example : DocPieces (.paged [⟨[.group [.text ['a']] none, .other, .text ['b']], some '\n'⟩, ⟨[.text ['c']], none⟩])
    [['a'], ['b'], ['\n'], ['c']] :=
  .page (f := ⟨[.group [.text ['a']] none, .other, .text ['b']], some '\n'⟩) (ps := [['a'], ['b']])
    (.group (js := [.text ['a']]) (hint := none) (qs := [['a']]) (.text .nil) (.other (.text .nil)))
    (.page (f := ⟨[.text ['c']], none⟩) (ps := [['c']]) (.text .nil) .nil)

/-- Counting in two parts: one word less when a word goes on over the cut. -/
theorem count_append (isSpace isCjk : Char → Bool) (a b : List Char) :
    (count isSpace isCjk (a ++ b)).words +
      (if (a.getLast?.map (kind isSpace isCjk)) = some Kind.other ∧
          (b.head?.map (kind isSpace isCjk)) = some Kind.other then 1 else 0) =
      (count isSpace isCjk a).words + (count isSpace isCjk b).words := by
  -- the words counted from a state, whatever was counted before
  have shift : ∀ (b : List Char) (s : State) (n : Counts),
      (b.foldl (step isSpace isCjk) (s, n)).2.words +
        (if s = .inNonCJK ∧ (b.head?.map (kind isSpace isCjk)) = some Kind.other then 1 else 0) =
      n.words + (count isSpace isCjk b).words := by
    have add : ∀ (b : List Char) (s : State) (n : Counts),
        (b.foldl (step isSpace isCjk) (s, n)).2.words =
          n.words + (b.foldl (step isSpace isCjk) (s, ⟨0, 0, 0, 0⟩)).2.words := by
      intro b
      induction b with
      | nil => intro s n; simp
      | cons c b ih =>
        intro s n
        rw [List.foldl_cons, List.foldl_cons]
        cases hk : kind isSpace isCjk c with
        | space => rw [step_space hk, step_space hk, ih]; conv => rhs; rw [ih]
                   simp
        | cjk => rw [step_cjk hk, step_cjk hk, ih]; conv => rhs; rw [ih]
                 simp; omega
        | other => rw [step_other hk, step_other hk, ih]; conv => rhs; rw [ih]
                   simp; omega
    intro b s n
    rw [add]
    cases b with
    | nil => simp [count]
    | cons c b =>
      unfold count
      rw [List.foldl_cons, List.foldl_cons]
      cases hk : kind isSpace isCjk c with
      | space =>
        rw [step_space hk, step_space hk, add]
        conv => rhs; rw [add]
        simp [hk]
      | cjk =>
        rw [step_cjk hk, step_cjk hk, add]
        conv => rhs; rw [add]
        simp [hk]
      | other =>
        rw [step_other hk, step_other hk, add]
        conv => rhs; rw [add]
        by_cases e : s = .inNonCJK <;> simp [hk, e] <;> omega
  have st : ∀ (a : List Char) (n : Counts), ((a.foldl (step isSpace isCjk) (.inSpace, n)).1 = .inNonCJK) ↔
      (a.getLast?.map (kind isSpace isCjk)) = some Kind.other := by
    intro a n
    rcases List.eq_nil_or_concat a with rfl | ⟨a, c, rfl⟩
    · simp
    · rw [List.concat_eq_append, List.foldl_append, List.getLast?_append]
      simp only [List.foldl_cons, List.foldl_nil, List.getLast?_singleton, Option.some_or, Option.map_some,
        Option.some.injEq]
      cases hk : kind isSpace isCjk c with
      | space => rw [step_space hk]; simp
      | cjk => rw [step_cjk hk]; simp
      | other => rw [step_other hk]; simp
  have h := shift b (a.foldl (step isSpace isCjk) (.inSpace, ⟨0, 0, 0, 0⟩)).1
    (a.foldl (step isSpace isCjk) (.inSpace, ⟨0, 0, 0, 0⟩)).2
  simp only [st a] at h
  show (((a ++ b).foldl (step isSpace isCjk) (.inSpace, ⟨0, 0, 0, 0⟩)).2).words + _ = _
  rw [List.foldl_append]
  exact h

/-- Meets the hypotheses: two words, a run of spaces and two CJK characters. -/
example : Runs (· = ' ') (· = '中') [(.other, ['a', 'b']), (.space, [' ', ' ']), (.cjk, ['中', '中']), (.other, ['c'])] ∧
    count (· = ' ') (· = '中') ("ab  中中c".toList) = ⟨4, 7, 1, 2⟩ := by
  refine ⟨.cons _ _ _ (by simp) (by decide) (by simp) (.cons _ _ _ (by simp) (by decide) (by simp)
    (.cons _ _ _ (by simp) (by decide) (by simp) (.cons _ _ _ (by simp) (by decide) (by simp) .nil))), by decide⟩

/-- In HTML documents nothing separates the texts of neighbouring elements: two paragraphs of one word each count as
one word. -/
theorem html_paragraphs_merge :
    (wordCount (· = ' ') (fun _ => false) (.html [.element [.text ['a']], .element [.text ['b']]])).words = 1 := by
  decide

end Tinymist.WordCount
