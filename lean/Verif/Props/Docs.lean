import Verif.Lemmas.Docs

/-!
# C96: comments that document definitions and modules
-/

namespace Tinymist.Docs

open Pages (isWhitespace trim Space Blank)

/-! ## Which comments -/

/-- The white space before does not add up with what comes. -/
def Fits (m : Matcher) (cs : List Child) : Prop := m.newlines = 0 ∨ m.newlines = 1 ∧ ∀ n, cs.head? ≠ some (.space n)

theorem SpacesApart.tail {c : Child} {cs : List Child} (h : SpacesApart (c :: cs)) : SpacesApart cs := by
  cases cs with
  | nil => trivial
  | cons d cs => cases c <;> first | exact h | (cases d <;> first | exact h | cases h)

theorem SpacesApart.head {n : Nat} {cs : List Child} (h : SpacesApart (.space n :: cs)) (k : Nat) : cs.head? ≠ some (.space k) := by
  cases cs with
  | nil => simp
  | cons d cs => cases d <;> first | exact h.elim | simp

theorem quiet_docs (run rest : List Child) : ∀ m : Matcher, Quiet run → Fits m run →
    ∃ k, docsOf m (run ++ rest) = docsOf ⟨m.comments ++ commentsOf run, k⟩ rest := by
  induction run with
  | nil => intro m _ _; exact ⟨m.newlines, by simp [commentsOf]⟩
  | cons c run ih =>
    rintro m ⟨h1, h2⟩ hf
    have hq : Quiet run := ⟨fun x hx => h1 x (List.mem_cons_of_mem _ hx), h2.tail⟩
    have hc := h1 c (List.mem_cons_self ..)
    cases c with
    | expr _ => cases hc
    | other => cases hc
    | hash =>
      obtain ⟨k, hk⟩ := ih { m with newlines := 0 } hq (.inl rfl)
      exact ⟨k, by rw [List.cons_append, docsOf.eq_def]; simpa [process, commentsOf] using hk⟩
    | line t =>
      obtain ⟨k, hk⟩ := ih ⟨m.comments ++ [.line t], 0⟩ hq (.inl rfl)
      exact ⟨k, by rw [List.cons_append, docsOf.eq_def]; simpa [process, commentsOf] using hk⟩
    | block t =>
      obtain ⟨k, hk⟩ := ih ⟨m.comments ++ [.block t], 0⟩ hq (.inl rfl)
      exact ⟨k, by rw [List.cons_append, docsOf.eq_def]; simpa [process, commentsOf] using hk⟩
    | space n =>
      have h0 : m.newlines = 0 := by
        rcases hf with h | ⟨_, h⟩
        · exact h
        · exact (h n rfl).elim
      obtain ⟨k, hk⟩ := ih { m with newlines := if n ≠ 0 then m.newlines + 1 else m.newlines } hq (by
        by_cases hn : n = 0
        · left; simp [hn, h0]
        · right; exact ⟨by simp [hn, h0], h2.head⟩)
      refine ⟨k, ?_⟩
      have hp : (process false m (.space n)).2 = false := by
        by_cases hn : n = 0 <;> simp [process, hn, h0]
      rw [List.cons_append, docsOf.eq_def]
      simp only [hp, Bool.false_eq_true, if_false]
      exact hk

theorem docs_before (a rest : List Child) : ∀ m : Matcher, ∃ ds m', docsOf m (a ++ rest) = ds ++ docsOf m' rest ∧
    ds.length = exprs a ∧ (a = [] → m' = m) ∧ ∀ c, a.getLast? = some c → ¬ c.quiet → m' = fresh := by
  induction a with
  | nil => intro m; exact ⟨[], m, rfl, rfl, fun _ => rfl, by simp⟩
  | cons c a ih =>
    intro m
    have key : ∀ (m1 : Matcher) (pre : List (Option Text)), docsOf m (c :: (a ++ rest)) = pre ++ docsOf m1 (a ++ rest) →
        pre.length + exprs a = exprs (c :: a) → (¬ c.quiet → m1 = fresh) →
        ∃ ds m', docsOf m (c :: a ++ rest) = ds ++ docsOf m' rest ∧ ds.length = exprs (c :: a) ∧ (c :: a = [] → m' = m) ∧
          ∀ d, (c :: a).getLast? = some d → ¬ d.quiet → m' = fresh := by
      intro m1 pre e hl hm
      obtain ⟨ds, m', h1, h2, h3, h4⟩ := ih m1
      refine ⟨pre ++ ds, m', by rw [List.cons_append, e, h1, List.append_assoc], by rw [List.length_append, h2, hl], by simp, ?_⟩
      intro d hd hq
      cases a with
      | nil =>
        simp at hd; subst hd
        rw [h3 rfl, hm hq]
      | cons x a => exact h4 d (by simpa using hd) hq
    cases c with
    | expr b => exact key fresh [if b then collect m.comments else none] (by rw [docsOf.eq_def]; rfl) (by simp [exprs]; omega) fun _ => rfl
    | other =>
      exact key fresh [] (by rw [docsOf.eq_def]; simp [process]) (by simp [exprs]) fun _ => rfl
    | hash => exact key _ [] (by rw [docsOf.eq_def]; simp [process]; rfl) (by simp [exprs]) fun h => (h trivial).elim
    | line t => exact key _ [] (by rw [docsOf.eq_def]; simp [process]; rfl) (by simp [exprs]) fun h => (h trivial).elim
    | block t => exact key _ [] (by rw [docsOf.eq_def]; simp [process]; rfl) (by simp [exprs]) fun h => (h trivial).elim
    | space n =>
      by_cases hb : (process false m (.space n)).2 = true
      · exact key fresh [] (by rw [docsOf.eq_def]; simp [hb]) (by simp [exprs]) fun h => (h trivial).elim
      · exact key (process false m (.space n)).1 [] (by rw [docsOf.eq_def]; simp [hb]) (by simp [exprs]) fun h => (h trivial).elim

/-- The comments a definition gets. -/
theorem docs_comments {a run b : List Child} (ha : Begins a) (hr : Quiet run) :
    (docsOf fresh (a ++ (run ++ .expr true :: b)))[exprs a]? = some (collect (commentsOf run)) := by
  obtain ⟨ds, m', h1, h2, h3, h4⟩ := docs_before a (run ++ .expr true :: b) fresh
  have hm : m' = fresh := by
    rcases ha with rfl | ⟨a', c, rfl, hc⟩
    · exact h3 rfl
    · exact h4 c (by simp) hc
  subst hm
  obtain ⟨k, hk⟩ := quiet_docs run (.expr true :: b) fresh hr (.inl rfl)
  rw [h1, hk, docsOf.eq_def]
  simp [← h2, fresh]

/-! ## Their text -/

theorem joinLines_ne {acc : Text} (h : acc ≠ []) (ls : List Text) : joinLines acc ls = acc ++ ls.flatMap ('\n' :: ·) := by
  induction ls generalizing acc with
  | nil => simp [joinLines]
  | cons s ls ih =>
    have he : acc.isEmpty = false := by simpa using h
    rw [joinLines, he, ih (by simp)]
    simp

theorem intercalate_cons (s : Text) (ls : List Text) : List.intercalate ['\n'] (s :: ls) = s ++ ls.flatMap ('\n' :: ·) := by
  induction ls generalizing s with
  | nil => simp [List.intercalate]
  | cons t ls ih =>
    have := ih t
    simp only [List.intercalate, List.intersperse_cons_cons, List.flatten_cons, List.flatMap_cons] at this ⊢
    rw [this]
    simp

theorem joinLines_nil (ls : List Text) : joinLines [] ls = List.intercalate ['\n'] (ls.dropWhile (· = [])) := by
  induction ls with
  | nil => rfl
  | cons s ls ih =>
    rw [joinLines]
    simp only [List.isEmpty_nil, if_true, List.nil_append]
    by_cases h : s = []
    · subst h; rw [ih]; simp
    · rw [joinLines_ne h, List.dropWhile_cons, if_neg (by simpa using h), intercalate_cons]

theorem dedent_spec (ls : List Text) (h : ls ≠ []) : ∃ d, dedent ls = some d ∧ (∀ l ∈ ls, d ≤ indent l) ∧ ∃ l ∈ ls, indent l = d := by
  induction ls with
  | nil => exact (h rfl).elim
  | cons s ls ih =>
    by_cases hl : ls = []
    · subst hl; exact ⟨indent s, rfl, by simp, s, by simp, rfl⟩
    · obtain ⟨d, h1, h2, l, h3, h4⟩ := ih hl
      refine ⟨min (indent s) d, by rw [dedent, h1], ?_, ?_⟩
      · intro x hx
        rcases List.mem_cons.mp hx with rfl | hx
        · omega
        · have := h2 x hx; omega
      · by_cases hm : indent s ≤ d
        · exact ⟨s, by simp, by omega⟩
        · exact ⟨l, List.mem_cons_of_mem _ h3, by omega⟩

theorem indent_le {s : Text} {d : Nat} (h : d ≤ indent s) : ∃ w r, s = w ++ r ∧ w.length = d ∧ Blank w := by
  refine ⟨s.take d, s.drop d, (List.take_append_drop d s).symm, ?_, ?_⟩
  · rw [List.length_take]
    have : indent s ≤ s.length := by
      rw [indent]
      exact List.Sublist.length_le (List.takeWhile_sublist _)
    omega
  · intro c hc
    have e : s.take d = (s.takeWhile isWhitespace).take d := by
      have := List.takeWhile_append_dropWhile (p := isWhitespace) (l := s)
      conv => lhs; rw [← this]
      exact List.take_append_of_le_length h
    rw [e] at hc
    exact (ws_iff c).mp (List.all_eq_true.mp (List.all_takeWhile (l := s)) c (List.mem_of_mem_take hc))

theorem indent_eq (s : Text) : ∃ w r, s = w ++ r ∧ w.length = indent s ∧ ∀ c, r.head? = some c → ¬ Space c := by
  refine ⟨s.takeWhile isWhitespace, s.dropWhile isWhitespace, List.takeWhile_append_dropWhile.symm, rfl, ?_⟩
  intro c hc
  rw [← ws_not]
  have := List.head?_dropWhile_not isWhitespace s
  rw [hc] at this
  simpa using this

theorem unindented {ls : List Text} (h : ls ≠ []) :
    Unindented ls (joinLines [] (ls.map fun s => s.drop ((dedent ls).getD 0))) := by
  obtain ⟨d, h1, h2, l, h3, h4⟩ := dedent_spec ls h
  refine ⟨d, fun x hx => ?_, ⟨l, h3, ?_⟩, ?_⟩
  · exact indent_le (h2 x hx)
  · obtain ⟨w, r, e1, e2, e3⟩ := indent_eq l
    exact ⟨w, r, e1, by rw [e2, h4], e3⟩
  · rw [h1, joinLines_nil]; rfl

theorem says_content {c : Comment} {s : Text} (h : Says c s) : content c = s := by
  cases h with
  | line n _ hs =>
    rw [content]
    induction n with
    | zero =>
      cases s with
      | nil => rfl
      | cons x s =>
        rw [List.replicate_zero, List.nil_append, List.dropWhile_cons, if_neg]
        intro hx
        have : x = '/' := by simpa using hx
        exact hs s (by rw [this])
    | succ n ih => rw [List.replicate_succ, List.cons_append, List.dropWhile_cons, if_pos (by simp), ih]
  | block w _ w' hw hw' hs hn =>
    rw [content, List.append_assoc, stripPrefix_append, Option.bind_some, stripSuffix_append]
    simp only [trim_trimmed hw hw' hs]
  | star v w _ w' hv hw hw' hs =>
    rw [content, List.append_assoc, stripPrefix_append, Option.bind_some, stripSuffix_append]
    have e : trim (v ++ '*' :: (w ++ s ++ w')) = '*' :: trimEnd (w ++ s ++ w') := trim_head hv (by decide)
    simp only [e]
    obtain ⟨w'', h1, h2⟩ := trimEnd_spec (w ++ s ++ w')
    have e2 : trim (w ++ s ++ w') = trim (trimEnd (w ++ s ++ w')) := by
      conv => lhs; rw [h1]
      rw [trim_blank_end _ h2]
    rw [← e2, trim_trimmed hw hw' hs]

theorem say_content : ∀ {cs : List Comment} {ss : List Text}, Say cs ss → cs.map content = ss
  | [], [], _ => rfl
  | c :: cs, s :: ss, h => by rw [List.map_cons, says_content h.1, say_content h.2]
  | [], _ :: _, h => h.elim
  | _ :: _, [], h => h.elim

theorem collect_say {cs : List Comment} {ss : List Text} (h : Say cs ss) (hn : ss ≠ []) :
    ∃ text, collect cs = some text ∧ Unindented ss text := by
  have e := say_content h
  refine ⟨_, ?_, unindented hn⟩
  rw [collect, e, if_neg]
  intro h'
  simp at h'
  subst h'
  exact hn e.symm

/-- **C96.** The documentation of a definition is made of the line comments between it and whatever is before: their text,
line by line, without the slashes and without the white space all of them begin with. Nothing that is before is taken.
Missing: comments that are set off by an empty line or that follow something on its line, which are taken too, see
`blank_line_ignored` and `trailing_comment_taken`. -/
theorem docs_of_definition_partial {a run b : List Child} {lines : List Text} (ha : Begins a) (hr : Quiet run)
    (hs : Say (commentsOf run) lines) :
    ∃ docs, (docsOf fresh (a ++ (run ++ .expr true :: b)))[exprs a]? = some docs ∧
      (lines = [] → docs = none) ∧ (lines ≠ [] → ∃ text, docs = some text ∧ Unindented lines text) := by
  refine ⟨_, docs_comments ha hr, ?_, ?_⟩
  · rintro rfl
    cases hc : commentsOf run with
    | nil => rfl
    | cons c cs => rw [hc] at hs; exact hs.elim
  · intro hn
    exact collect_say hs hn

/-! ## Modules -/

theorem docPrefix_iff (t : Text) : docPrefix.isPrefixOf t = true ↔ ∃ r, t = '/' :: '/' :: '/' :: r := by
  rw [List.isPrefixOf_iff_prefix]
  constructor
  · rintro ⟨r, h⟩; exact ⟨r, h.symm⟩
  · rintro ⟨r, rfl⟩; exact ⟨r, rfl⟩

theorem docLines_line (t : Text) (cs : List Child) :
    docLines (.line t :: cs) = (if docPrefix.isPrefixOf t then [.line t] else []) ++ docLines cs := by
  rw [docLines.eq_def]
  split
  · rename_i h; cases h
  · rename_i h; cases h
    rw [if_pos ((docPrefix_iff _).mpr ⟨_, rfl⟩)]; rfl
  · rename_i hn h; cases h
    rw [if_neg]
    · rfl
    · rw [docPrefix_iff]
      rintro ⟨r, rfl⟩
      exact hn r rfl

theorem quiet_module (run rest : List Child) : ∀ m : Matcher, Quiet run → Fits m run →
    ∃ k, moduleComments m (run ++ rest) = moduleComments ⟨m.comments ++ docLines run, k⟩ rest := by
  induction run with
  | nil => intro m _ _; exact ⟨m.newlines, by simp [docLines]⟩
  | cons c run ih =>
    rintro m ⟨h1, h2⟩ hf
    have hq : Quiet run := ⟨fun x hx => h1 x (List.mem_cons_of_mem _ hx), h2.tail⟩
    have hc := h1 c (List.mem_cons_self ..)
    cases c with
    | expr _ => cases hc
    | other => cases hc
    | hash =>
      obtain ⟨k, hk⟩ := ih { m with newlines := 0 } hq (.inl rfl)
      exact ⟨k, by rw [List.cons_append, moduleComments.eq_def]; simpa [process, docLines] using hk⟩
    | line t =>
      rw [docLines_line]
      by_cases ht : docPrefix.isPrefixOf t = true
      · obtain ⟨k, hk⟩ := ih ⟨m.comments ++ [.line t], 0⟩ hq (.inl rfl)
        exact ⟨k, by rw [List.cons_append, moduleComments.eq_def]; simpa [process, ht] using hk⟩
      · obtain ⟨k, hk⟩ := ih ⟨m.comments, 0⟩ hq (.inl rfl)
        exact ⟨k, by rw [List.cons_append, moduleComments.eq_def]; simpa [process, ht] using hk⟩
    | block t =>
      obtain ⟨k, hk⟩ := ih ⟨m.comments, 0⟩ hq (.inl rfl)
      exact ⟨k, by rw [List.cons_append, moduleComments.eq_def]; simpa [process, docLines] using hk⟩
    | space n =>
      have h0 : m.newlines = 0 := by
        rcases hf with h | ⟨_, h⟩
        · exact h
        · exact (h n rfl).elim
      obtain ⟨k, hk⟩ := ih { m with newlines := if n ≠ 0 then m.newlines + 1 else m.newlines } hq (by
        by_cases hn : n = 0
        · left; simp [hn, h0]
        · right; exact ⟨by simp [hn, h0], h2.head⟩)
      refine ⟨k, ?_⟩
      have hp : (process true m (.space n)).2 = false := by
        by_cases hn : n = 0 <;> simp [process, hn, h0]
      rw [List.cons_append, moduleComments.eq_def]
      simp only [hp, Bool.false_eq_true, if_false]
      exact hk

/-- **C96.** The documentation of a module is made of the comments with three slashes that are before anything else,
an empty line too. -/
theorem docs_of_module {run rest : List Child} {lines : List Text} (hr : Quiet run)
    (hrest : ∀ c, rest.head? = some c → ¬ c.quiet) (hs : Say (docLines run) lines) :
    (lines = [] → moduleDocs (run ++ rest) = none) ∧
      (lines ≠ [] → ∃ text, moduleDocs (run ++ rest) = some text ∧ Unindented lines text) := by
  have e : moduleDocs (run ++ rest) = collect (docLines run) := by
    obtain ⟨k, hk⟩ := quiet_module run rest fresh hr (.inl rfl)
    rw [moduleDocs, hk]
    congr 1
    cases rest with
    | nil => rfl
    | cons c rest =>
      have hc := hrest c rfl
      cases c with
      | expr _ => rfl
      | other => rfl
      | hash => exact (hc trivial).elim
      | space _ => exact (hc trivial).elim
      | line _ => exact (hc trivial).elim
      | block _ => exact (hc trivial).elim
  rw [e]
  refine ⟨?_, fun hn => collect_say hs hn⟩
  rintro rfl
  cases hc : docLines run with
  | nil => rfl
  | cons c cs => rw [hc] at hs; exact hs.elim

/-! ## What goes wrong -/

/-- **C96, violated.** `#let a = 1 // about a` followed by `#let b = 2`: the comment documents `b`. -/
theorem trailing_comment_taken :
    docsOf fresh [.hash, .expr true, .space 0, .line "// about a".toList, .space 1, .hash, .expr true] =
      [none, some "about a".toList] := by
  decide +kernel

/-- **C96, violated.** In code, a comment that is set off by empty lines documents what follows; in markup, where an empty
line is a paragraph break, it does not. -/
theorem blank_line_ignored :
    docsOf fresh [.line "// section".toList, .space 3, .expr true] = [some "section".toList] ∧
      docsOf fresh [.line "// section".toList, .expr false, .hash, .expr true] = [none, none] := by
  decide +kernel

/-- **C96, violated.** If one of the lines is empty, the space after the slashes is kept in all of them. -/
theorem empty_line_keeps_indent :
    docsOf fresh [.line "/// A".toList, .space 1, .line "///".toList, .space 1, .line "/// B".toList, .space 1, .hash, .expr true] =
      [some " A\n\n B".toList] := by
  decide +kernel

/-- The hypotheses of `docs_of_definition_partial` hold for a definition with two lines of documentation after another. -/
example : Begins [.hash, .expr true] ∧
    Quiet [.space 1, .line ['/', '/', '/', ' ', 'A'], .space 1, .line ['/', '/', '/', ' ', ' ', 'B'], .space 1, .hash] ∧
    Say (commentsOf [.space 1, .line ['/', '/', '/', ' ', 'A'], .space 1, .line ['/', '/', '/', ' ', ' ', 'B'], .space 1, .hash])
      [[' ', 'A'], [' ', ' ', 'B']] ∧ Unindented [[' ', 'A'], [' ', ' ', 'B']] ['A', '\n', ' ', 'B'] := by
  refine ⟨.inr ⟨[.hash], .expr true, rfl, fun h => h⟩, ⟨by simp [Child.quiet], by simp [SpacesApart]⟩,
    ⟨.line 3 _ (by simp), .line 3 _ (by simp), trivial⟩, 1, ?_, ?_, by decide⟩
  · intro l hl
    simp at hl
    rcases hl with rfl | rfl
    · exact ⟨[' '], ['A'], rfl, rfl, by intro c hc; simp at hc; subst hc; exact (ws_iff _).mp (by decide)⟩
    · exact ⟨[' '], [' ', 'B'], rfl, rfl, by intro c hc; simp at hc; subst hc; exact (ws_iff _).mp (by decide)⟩
  · exact ⟨[' ', 'A'], by simp, [' '], ['A'], rfl, rfl, by intro c hc; simp at hc; subst hc; exact (ws_not _).mp (by decide)⟩

/-- Those of `docs_of_module` for a file that begins with a license, the documentation and an empty line. -/
example : Quiet [.line ['/', '/', ' ', 'L'], .space 1, .line ['/', '/', '/', ' ', 'D']] ∧
    (∀ c, [Child.expr false, .hash, .expr true].head? = some c → ¬ c.quiet) ∧
    Say (docLines [.line ['/', '/', ' ', 'L'], .space 1, .line ['/', '/', '/', ' ', 'D']]) [[' ', 'D']] := by
  refine ⟨⟨by simp [Child.quiet], by simp [SpacesApart]⟩, by simp [Child.quiet], .line 3 _ (by simp), trivial⟩

end Tinymist.Docs
