import Verif.Spec.Typlite

/-!
# C111: code stays code
-/

namespace Tinymist.Typlite

/-! ## Lines -/

theorem isLines_single {l : Text} (h : '\n' ∉ l) : IsLines l [l] := ⟨by simp, by simpa using h, by simp [List.intercalate, List.intersperse]⟩

theorem isLines_cons {l t : Text} {ls : List Text} (hl : '\n' ∉ l) (h : IsLines t ls) : IsLines (l ++ '\n' :: t) (l :: ls) := by
  obtain ⟨hne, hn, rfl⟩ := h
  refine ⟨by simp, ?_, ?_⟩
  · intro x hx
    rcases List.mem_cons.mp hx with rfl | hx
    · exact hl
    · exact hn x hx
  · cases ls with
    | nil => exact absurd rfl hne
    | cons a as => simp [List.intercalate, List.intersperse]

theorem isLines_append {a : Text} {as : List Text} {b : Text} {bs : List Text} (ha : IsLines a as) (hb : IsLines b bs) :
    IsLines (a ++ '\n' :: b) (as ++ bs) := by
  obtain ⟨hne, hn, rfl⟩ := ha
  induction as with
  | nil => exact absurd rfl hne
  | cons x xs ih =>
    cases xs with
    | nil =>
      have := isLines_cons (hn x (by simp)) hb
      simpa [List.intercalate, List.intersperse] using this
    | cons y ys =>
      have := isLines_cons (hn x (by simp)) (ih (by simp) (fun l hl => hn l (List.mem_cons_of_mem _ hl)))
      simpa [List.intercalate, List.intersperse] using this

theorem line_infix {t : Text} {ls : List Text} (h : IsLines t ls) {l : Text} (hl : l ∈ ls) : ∃ a b, t = a ++ (l ++ b) := by
  obtain ⟨hne, hn, rfl⟩ := h
  clear hne hn
  induction ls with
  | nil => simp at hl
  | cons x xs ih =>
    cases xs with
    | nil =>
      simp only [List.mem_singleton] at hl
      subst hl
      exact ⟨[], [], by simp [List.intercalate, List.intersperse]⟩
    | cons y ys =>
      rcases List.mem_cons.mp hl with rfl | hl
      · exact ⟨[], _, by simp [List.intercalate, List.intersperse]; rfl⟩
      · obtain ⟨a, b, he⟩ := ih hl
        refine ⟨x ++ '\n' :: a, b, ?_⟩
        have : List.intercalate ['\n'] (x :: y :: ys) = x ++ '\n' :: List.intercalate ['\n'] (y :: ys) := by
          simp [List.intercalate, List.intersperse]
        rw [this, he]
        simp

/-- A text has only one list of lines. -/
theorem isLines_unique {t : Text} {ls ms : List Text} (h : IsLines t ls) (h' : IsLines t ms) : ls = ms := by
  obtain ⟨hne, hn, rfl⟩ := h
  obtain ⟨hne', hn', he⟩ := h'
  induction ls generalizing ms with
  | nil => exact absurd rfl hne
  | cons x xs ih =>
    cases ms with
    | nil => exact absurd rfl hne'
    | cons y ys =>
      have cut : ∀ (p q a b : Text), '\n' ∉ p → '\n' ∉ q → p ++ '\n' :: a = q ++ '\n' :: b → p = q ∧ a = b := by
        intro p
        induction p with
        | nil =>
          intro q a b _ hq h
          cases q with
          | nil => simpa using h
          | cons c q =>
            simp only [List.nil_append, List.cons_append, List.cons.injEq] at h
            exact absurd (by rw [← h.1]; simp) hq
        | cons d p ihp =>
          intro q a b hp hq h
          cases q with
          | nil =>
            simp only [List.nil_append, List.cons_append, List.cons.injEq] at h
            exact absurd (by rw [h.1]; simp) hp
          | cons c q =>
            simp only [List.cons_append, List.cons.injEq] at h
            simp only [List.mem_cons, not_or] at hp hq
            have := ihp q a b hp.2 hq.2 h.2
            exact ⟨by rw [h.1, this.1], this.2⟩
      have one : ∀ (l : Text) (m : Text) (ms : List Text) (z : Text), '\n' ∉ l →
          l ≠ List.intercalate ['\n'] (m :: z :: ms) := by
        intro l m ms z hl h
        apply hl
        rw [h]
        simp [List.intercalate, List.intersperse]
      have two : ∀ (x y : Text) (ys : List Text), List.intercalate ['\n'] (x :: y :: ys) =
          x ++ '\n' :: List.intercalate ['\n'] (y :: ys) := by
        intro x y ys
        simp [List.intercalate, List.intersperse]
      cases xs with
      | nil =>
        cases ys with
        | nil => simpa [List.intercalate, List.intersperse] using he
        | cons z ys =>
          exact absurd (by simpa [List.intercalate, List.intersperse] using he) (one x y ys z (hn x (by simp)))
      | cons a xs =>
        cases ys with
        | nil =>
          exact absurd (by simpa [List.intercalate, List.intersperse] using he.symm) (one y x xs a (hn' y (by simp)))
        | cons z ys =>
          rw [two, two] at he
          have := cut _ _ _ _ (hn x (by simp)) (hn' y (by simp)) he
          rw [this.1]
          congr 1
          exact ih (by simp) (fun l hl => hn l (List.mem_cons_of_mem _ hl)) (by simp)
            (fun l hl => hn' l (List.mem_cons_of_mem _ hl)) this.2

/-- Every text has lines. -/
theorem isLines_exists (t : Text) : ∃ ls, IsLines t ls := by
  induction t with
  | nil => exact ⟨[[]], isLines_single (by simp)⟩
  | cons c t ih =>
    obtain ⟨ls, h⟩ := ih
    by_cases hc : c = '\n'
    · subst hc
      exact ⟨[] :: ls, isLines_cons (l := []) (by simp) h⟩
    · obtain ⟨hne, hn, rfl⟩ := h
      cases ls with
      | nil => exact absurd rfl hne
      | cons l ls =>
        refine ⟨(c :: l) :: ls, by simp, ?_, ?_⟩
        · intro x hx
          rcases List.mem_cons.mp hx with rfl | hx
          · simp only [List.mem_cons, not_or]
            exact ⟨fun e => hc e.symm, hn l (by simp)⟩
          · exact hn x (List.mem_cons_of_mem _ hx)
        · cases ls <;> simp [List.intercalate, List.intersperse]

/-! ## Runs of backticks -/

theorem ticks_not_closing {n : Nat} {t : Text} {ls : List Text} (h : IsLines t ls) (hf : FewTicks n t) : ∀ l ∈ ls, ¬ Closes n l := by
  intro l hl hc
  obtain ⟨s, k, r, _, hk, _, rfl⟩ := hc
  obtain ⟨a, b, he⟩ := line_infix h hl
  apply hf (a ++ List.replicate s ' ') (List.replicate (k - n) '`' ++ (r ++ b))
  rw [he]
  have : List.replicate k '`' = List.replicate n '`' ++ List.replicate (k - n) '`' := by
    rw [List.replicate_append_replicate]
    congr 1
    omega
  rw [this]
  simp only [List.append_assoc]

theorem closes_ticks (n s : Nat) (hs : s ≤ 3) : Closes n (List.replicate s ' ' ++ List.replicate n '`') :=
  ⟨s, n, [], hs, Nat.le_refl _, by simp, by simp⟩

def runStep (acc : Nat × Nat) (c : Char) : Nat × Nat := if c = '`' then (acc.1, acc.2 + 1) else (max acc.1 acc.2, 0)

theorem longestRun_eq (t : Text) : longestRun t = (t.foldl runStep (0, 0)).1 := rfl

theorem run_fst (t : Text) : ∀ acc : Nat × Nat, acc.1 ≤ (t.foldl runStep acc).1 := by
  induction t with
  | nil => intro acc; exact Nat.le_refl _
  | cons c t ih =>
    intro acc
    refine Nat.le_trans ?_ (ih _)
    rw [runStep]
    split
    · exact Nat.le_refl _
    · exact Nat.le_max_left _ _

theorem run_snd (t : Text) : ∀ acc : Nat × Nat, t ≠ [] → t.getLast? ≠ some '`' → acc.2 ≤ (t.foldl runStep acc).1 := by
  induction t with
  | nil => intro acc h; exact absurd rfl h
  | cons c t ih =>
    intro acc _ hl
    rw [List.foldl_cons]
    by_cases hc : c = '`'
    · subst hc
      have hne : t ≠ [] := by
        intro e
        subst e
        simp at hl
      refine Nat.le_trans ?_ (ih _ hne ?_)
      · simp [runStep]
      · rw [List.getLast?_cons] at hl
        cases t with
        | nil => exact absurd rfl hne
        | cons d t => simpa [List.getLast?_cons] using hl
    · refine Nat.le_trans ?_ (run_fst _ _)
      rw [runStep, if_neg hc]
      exact Nat.le_max_right _ _

theorem run_replicate (k : Nat) : ∀ acc : Nat × Nat, (List.replicate k '`').foldl runStep acc = (acc.1, acc.2 + k) := by
  induction k with
  | zero => intro acc; rfl
  | succ k ih =>
    intro acc
    rw [List.replicate_succ, List.foldl_cons, ih]
    simp only [runStep, if_true]
    ext
    · rfl
    · simp only
      omega

theorem few_ticks {t : Text} (h : t.getLast? ≠ some '`') {n : Nat} (hn : longestRun t < n) : FewTicks n t := by
  intro a b he
  have hb : b ≠ [] := by
    intro e
    subst e
    cases n with
    | zero => omega
    | succ n =>
      apply h
      rw [he, List.append_nil, List.getLast?_append, List.getLast?_replicate]
      simp
  have hl : b.getLast? ≠ some '`' := by
    intro e
    apply h
    rw [he, List.getLast?_append, List.getLast?_append, e]
    rfl
  have h1 := run_snd b ((List.replicate n '`').foldl runStep (a.foldl runStep (0, 0))) hb hl
  rw [run_replicate] at h1
  have h2 : longestRun t = (b.foldl runStep ((List.replicate n '`').foldl runStep (a.foldl runStep (0, 0)))).1 := by
    rw [longestRun_eq, he, List.foldl_append, List.foldl_append]
  rw [run_replicate] at h2
  simp only at h1
  omega

theorem nl_ticks (n : Nat) : '\n' ∉ List.replicate n '`' := by
  rw [List.mem_replicate]
  rintro ⟨_, h⟩
  exact absurd h (by decide)

/-- A text between fences that are longer than its runs of backticks. -/
theorem fenced_block {n : Nat} (hn : 3 ≤ n) {info t : Text} {code : List Text} (hi : '`' ∉ info) (hi' : '\n' ∉ info)
    (h : IsLines t code) (hc : ∀ l ∈ code, ¬ Closes n l) {s : Nat} (hs : s ≤ 3) :
    CodeBlock (List.replicate n '`' ++ info ++ ['\n'] ++ t ++ ['\n'] ++ List.replicate s ' ' ++ List.replicate n '`') info code := by
  refine ⟨(List.replicate n '`' ++ info) :: (code ++ [List.replicate s ' ' ++ List.replicate n '`']), ?_, n, _, hn, hi, rfl,
    closes_ticks n s hs, hc⟩
  have hl : '\n' ∉ List.replicate s ' ' ++ List.replicate n '`' := by
    intro h
    rcases List.mem_append.mp h with h | h
    · have := (List.mem_replicate.mp h).2
      exact absurd this (by decide)
    · exact nl_ticks n h
  have hf : '\n' ∉ List.replicate n '`' ++ info := by
    intro h
    rcases List.mem_append.mp h with h | h
    · exact nl_ticks n h
    · exact hi' h
  have := isLines_cons hf (isLines_append h (isLines_single hl))
  simpa using this

/-! ## Functions and nodes -/

theorem eval_raw (env : Env) (fuel : Nat) (lang : Option Text) (block : Bool) (lines : List Text) (src : Text) (w : Worker) :
    eval env (fuel + 1) (.raw lang block lines src) w = .ok (.content (rawText lang block lines src), w) := rfl

theorem eval_rawCall (env : Env) (fuel : Nat) (src c : Text) (w : Worker) :
    eval env (fuel + 1) (.call src (.ident "raw".toList) [.str c] []) w = .ok (.content (rawCall c), w) := by
  rfl

/-- **C111.** A call of `raw` gives a block of code that holds exactly the lines of the text, if that does not end with a
backtick. Missing: texts that do. -/
theorem raw_function_partial (env : Env) (fuel : Nat) (src c : Text) (w : Worker) (h : c.getLast? ≠ some '`') :
    ∃ out, eval env (fuel + 1) (.call src (.ident "raw".toList) [.str c] []) w = .ok (.content out, w) ∧
      ∀ code, IsLines c code → CodeBlock out [] code := by
  refine ⟨_, eval_rawCall env fuel src c w, ?_⟩
  intro code hcode
  have := fenced_block (n := max (longestRun c + 1) 3) (by omega) (info := []) (by simp) (by simp) hcode
    (ticks_not_closing hcode (few_ticks h (by omega))) (s := 0) (by omega)
  simpa [rawCall] using this

/-- A text with backticks that does not end with one. -/
example : "a\n```\nb".toList.getLast? ≠ some '`' := by decide

/-- **C111.** Of a text that ends with backticks the fence may be too short: `raw("```")` gives three lines of three backticks, of
which the second one ends the block. No reading of them is one block of code. -/
theorem raw_function_ticks (env : Env) (fuel : Nat) (src : Text) (w : Worker) :
    ∃ out, eval env (fuel + 1) (.call src (.ident "raw".toList) [.str ['`', '`', '`']] []) w = .ok (.content out, w) ∧
      ∀ info code, ¬ CodeBlock out info code := by
  refine ⟨_, eval_rawCall env fuel src _ w, ?_⟩
  rintro info code ⟨ls, hls, n, close, hn, hi, he, _, hc⟩
  have hl : IsLines (rawCall ['`', '`', '`']) [['`', '`', '`'], ['`', '`', '`'], ['`', '`', '`']] :=
    ⟨by simp, by decide, by decide⟩
  have := isLines_unique hls hl
  rw [this] at he
  simp only [List.cons.injEq] at he
  have hlen : n ≤ 3 := by
    have := congrArg List.length he.1
    simp at this
    omega
  have hcode : code = [['`', '`', '`']] := by
    have := he.2
    rw [show [['`', '`', '`'], ['`', '`', '`']] = [['`', '`', '`']] ++ [['`', '`', '`']] from rfl] at this
    exact (List.append_inj' this rfl).1.symm
  apply hc ['`', '`', '`'] (by rw [hcode]; simp)
  exact ⟨0, 3, [], by omega, hlen, by simp, rfl⟩

/-- **C111.** A block of raw text whose end is on a line of its own, indented by at most three spaces, stays a block of code with
the same lines and the language as it was written. Missing: blocks that end, or begin, in a line with text. -/
theorem raw_block_partial (env : Env) (fuel : Nat) (lang : Option Text) (lines : List Text) (w : Worker) (n : Nat) (info body : Text)
    (s : Nat) (code : List Text) (hl : lang ≠ some "typlite".toList) (hn : 3 ≤ n) (hi : '`' ∉ info) (hi' : '\n' ∉ info)
    (hs : s ≤ 3) (hb : IsLines body code) (hf : FewTicks n body) :
    ∃ out, eval env (fuel + 1) (.raw lang true lines (List.replicate n '`' ++ info ++ ['\n'] ++ body ++ ['\n'] ++
        List.replicate s ' ' ++ List.replicate n '`')) w = .ok (.content out, w) ∧ CodeBlock out info code := by
  refine ⟨_, eval_raw .., ?_⟩
  have : lang ≠ some typlite := hl
  rw [rawText, if_neg this, if_pos rfl]
  exact fenced_block hn hi hi' hb (ticks_not_closing hb hf) hs

/-- **C111.** A block whose end is behind text is not a block of code of its own in Markdown: nothing ends it. -/
theorem raw_block_open (env : Env) (fuel : Nat) (lines : List Text) (w : Worker) :
    ∃ out, eval env (fuel + 1) (.raw none true lines "```\na```".toList) w = .ok (.content out, w) ∧
      ∀ info code, ¬ CodeBlock out info code := by
  refine ⟨_, eval_raw .., ?_⟩
  rintro info code ⟨ls, hls, n, close, hn, hi, he, hc, _⟩
  have hl : IsLines (rawText none true lines "```\na```".toList) [['`', '`', '`'], ['a', '`', '`', '`']] :=
    ⟨by simp, by decide, by simp [rawText]⟩
  have := isLines_unique hls hl
  rw [this] at he
  simp only [List.cons.injEq] at he
  have hcl : close = ['a', '`', '`', '`'] := by
    have := he.2
    rw [show [['a', '`', '`', '`']] = [] ++ [['a', '`', '`', '`']] from rfl] at this
    have := (List.append_inj' this rfl).2
    simpa using this.symm
  obtain ⟨s, k, t, _, hk, _, hx⟩ := hc
  rw [hcl] at hx
  cases s with
  | zero =>
    cases k with
    | zero => omega
    | succ k => simp [List.replicate_succ] at hx
  | succ s => simp [List.replicate_succ] at hx

/-- **C111.** Raw text in a line that is on one line, without backticks and without spaces at both ends, is shown as it is. Missing:
raw text over several lines, with backticks or between spaces. -/
theorem raw_inline_partial (env : Env) (fuel : Nat) (l src : Text) (w : Worker) (hne : l ≠ []) (ht : '`' ∉ l) (hn : '\n' ∉ l)
    (hs : ∀ m, l ≠ ' ' :: (m ++ [' '])) :
    ∃ out, eval env (fuel + 1) (.raw none false [l] src) w = .ok (.content out, w) ∧ CodeSpan out l := by
  refine ⟨_, eval_raw .., l, by simp [rawText], hne, ht, ?_⟩
  have hm : l.map (fun c => if c = '\n' then ' ' else c) = l := by
    conv => rhs; rw [← List.map_id l]
    apply List.map_congr_left
    intro c hc
    rw [if_neg]
    · rfl
    · intro e
      exact hn (e ▸ hc)
  simp only [hm]
  exact Or.inr (Or.inl ⟨hs, trivial⟩)

/-- **C111.** Raw text in a line over two lines is glued together: `a` and `b` are shown as `ab`. -/
theorem raw_inline_glued (env : Env) (fuel : Nat) (w : Worker) :
    ∃ out, eval env (fuel + 1) (.raw none false [['a'], ['b']] "`a\nb`".toList) w = .ok (.content out, w) ∧
      CodeSpan out ['a', 'b'] := by
  refine ⟨_, eval_raw .., ['a', 'b'], by simp [rawText], by decide, by decide, Or.inr (Or.inl ⟨?_, by decide⟩)⟩
  intro m h
  simp at h

/-- **C111.** Raw text with a backtick in it is not code in Markdown. -/
theorem raw_inline_tick (env : Env) (fuel : Nat) (w : Worker) :
    ∃ out, eval env (fuel + 1) (.raw none false [['a', '`', 'b']] "```a`b```".toList) w = .ok (.content out, w) ∧
      ∀ code, ¬ CodeSpan out code := by
  refine ⟨_, eval_raw .., ?_⟩
  rintro code ⟨inner, he, _, ht, _⟩
  apply ht
  have : inner = ['a', '`', 'b'] := by
    have h : ['a', '`', 'b'] ++ ['`'] = inner ++ ['`'] := by
      have := he
      simp [rawText] at this
      simpa using this
    exact (List.append_inj' h rfl).1.symm
  rw [this]
  decide

/-- **C111.** Equations and code with `context` are shown as code if there is to be no HTML: in a block with all of the lines, or in
the line, if they have fewer than three backticks in a row, or none. Missing: those with more. -/
theorem shown_as_source_partial (env : Env) (fuel : Nat) (src : Text) (w : Worker) (h : env.removeHtml = true) :
    (FewTicks 3 src → ∀ code, IsLines src code →
      (∃ out, eval env (fuel + 1) (.equation src true) w = .ok (.content out, w) ∧ CodeBlock out "typc".toList code) ∧
      ∃ out, eval env (fuel + 1) (.context src) w = .ok (.content out, w) ∧ CodeBlock out "typc".toList code) ∧
    ('`' ∉ src → ∃ out, eval env (fuel + 1) (.equation ('$' :: src) false) w = .ok (.content out, w) ∧
      CodeSpan out (('$' :: src).map fun c => if c = '\n' then ' ' else c)) := by
  refine ⟨?_, ?_⟩
  · intro hf code hcode
    have hb : CodeBlock (toRawBlock src false) "typc".toList code := by
      have := fenced_block (n := 3) (by omega) (info := "typc".toList) (by decide) (by decide) hcode (ticks_not_closing hcode hf)
        (s := 0) (by omega)
      simpa [toRawBlock, List.replicate_succ] using this
    refine ⟨⟨toRawBlock src false, ?_, hb⟩, toRawBlock src false, ?_, hb⟩
    · simp [eval, step, h, andThen, ret, note]
    · simp [eval, step, h, andThen, note]
  · intro ht
    refine ⟨toRawBlock ('$' :: src) true, by simp [eval, step, h, andThen, ret, note], '$' :: src, by simp [toRawBlock], by simp, ?_,
      Or.inr (Or.inl ⟨?_, rfl⟩)⟩
    · simp only [List.mem_cons, not_or]
      exact ⟨by decide, ht⟩
    · intro m he
      simp at he

/-- An equation over three lines. -/
example : FewTicks 3 "$ a\n  b $".toList ∧ IsLines "$ a\n  b $".toList ["$ a".toList, "  b $".toList] := by
  refine ⟨?_, by decide, by decide, by decide⟩
  intro a b h
  have : '`' ∈ "$ a\n  b $".toList := by
    rw [h]
    simp [List.replicate_succ]
  exact absurd this (by decide)

/-! ## Errors -/

def escapeTicks (t : Text) : Text := t.flatMap fun c => if c = '`' then ['\\', '`'] else [c]

theorem escapeTicks_cons (c : Char) (t : Text) :
    escapeTicks (c :: t) = (if c = '`' then ['\\', '`'] else [c]) ++ escapeTicks t := by
  rw [escapeTicks, List.flatMap_cons, escapeTicks]

theorem escapeTicks_head (t r : Text) : escapeTicks t ≠ '`' :: r := by
  cases t with
  | nil => simp [escapeTicks]
  | cons c t =>
    rw [escapeTicks_cons]
    split
    · simp
    · rename_i hc
      intro h
      exact hc (List.cons.inj h).1

theorem escapeTicks_few (t : Text) : ∀ a b, escapeTicks t ≠ a ++ '`' :: '`' :: b := by
  induction t with
  | nil => intro a b; simp [escapeTicks]
  | cons c t ih =>
    intro a b h
    rw [escapeTicks_cons] at h
    split at h
    · cases a with
      | nil => simp at h
      | cons x a =>
        cases a with
        | nil =>
          simp only [List.cons_append, List.nil_append, List.cons.injEq] at h
          exact escapeTicks_head _ _ h.2.2
        | cons y a =>
          simp only [List.cons_append, List.nil_append, List.cons.injEq] at h
          exact ih a b h.2.2
    · rename_i hc
      cases a with
      | nil => exact hc (List.cons.inj h).1
      | cons x a => exact ih a b (List.cons.inj h).2

theorem no_ticks_open {n : Nat} {l : Text} (h : '`' ∉ l) (hn : 0 < n) : ¬ Closes n l := by
  rintro ⟨s, k, t, _, hk, _, rfl⟩
  apply h
  simp only [List.mem_append, List.mem_replicate]
  exact Or.inl (Or.inr ⟨by omega, trivial⟩)

theorem errorText_eq (e : Text) : errorText e = List.replicate 3 '`' ++ [] ++ ['\n'] ++
    ("Render Error".toList ++ '\n' :: escapeTicks e) ++ ['\n'] ++ List.replicate 0 ' ' ++ List.replicate 3 '`' := by
  unfold errorText
  generalize "Render Error".toList = title
  simp [escapeTicks, List.replicate_succ]

/-- **C111.** What went wrong when a piece was rendered is shown as one block of code below a title, whatever the message is, if
errors are to be shown, and the conversion goes on; only a backslash is put before its backticks. Otherwise the conversion fails. -/
theorem render_error (env : Env) (e : Text) (prepend code : Text) (inline : Bool) (w : Worker) (t : Theme)
    (h : env.theme = some t ∨ env.theme = none ∧ t = .dark) (hs : env.assetsSrc = none) (he : env.svg prepend code t = .error e) :
    (env.softError = true → ∃ out w', renderPiece env prepend code inline w = .ok (out, w') ∧
      ∃ shown, CodeBlock out [] ("Render Error".toList :: shown) ∧
        ∀ ls, IsLines e ls → shown = ls.map fun l => l.flatMap fun c => if c = '`' then ['\\', '`'] else [c]) ∧
    (env.softError = false → renderPiece env prepend code inline w = .error .error) := by
  have hr : renderPiece env prepend code inline w = renderFailed env e { w with assets := w.assets + 1 } := by
    rcases h with h | ⟨h, rfl⟩ <;> simp only [renderPiece, hs, renderCode, h, renderInner, he]
  refine ⟨?_, ?_⟩
  · intro hsoft
    refine ⟨errorText e, { w with assets := w.assets + 1 }, by rw [hr, renderFailed, if_pos hsoft], ?_⟩
    obtain ⟨ls, hls⟩ := isLines_exists e
    have hesc : ∀ {t : Text} {ls : List Text}, IsLines t ls → IsLines (escapeTicks t) (ls.map escapeTicks) := by
      intro t ls h
      obtain ⟨hne, hn, rfl⟩ := h
      have hnl : ∀ l : Text, '\n' ∉ l → '\n' ∉ escapeTicks l := by
        intro l hl hm
        rw [escapeTicks, List.mem_flatMap] at hm
        obtain ⟨c, hc, hm⟩ := hm
        split at hm
        · simp at hm
        · simp only [List.mem_singleton] at hm
          exact hl (hm ▸ hc)
      refine ⟨by simpa using hne, ?_, ?_⟩
      · intro l hl
        obtain ⟨m, hm, rfl⟩ := List.mem_map.mp hl
        exact hnl m (hn m hm)
      · clear hne hn
        induction ls with
        | nil => rfl
        | cons x xs ih =>
          cases xs with
          | nil => simp [List.intercalate, List.intersperse]
          | cons y ys =>
            have two : ∀ (x y : Text) (ys : List Text), List.intercalate ['\n'] (x :: y :: ys) =
                x ++ '\n' :: List.intercalate ['\n'] (y :: ys) := by
              intro x y ys
              simp [List.intercalate, List.intersperse]
            rw [two, List.map_cons, List.map_cons, two, ← List.map_cons, ← ih]
            simp [escapeTicks]
    rw [errorText_eq]
    have t1 : '\n' ∉ "Render Error".toList := by decide
    have t2 : '`' ∉ "Render Error".toList := by decide
    generalize "Render Error".toList = title at t1 t2 ⊢
    refine ⟨ls.map escapeTicks, ?_, ?_⟩
    · have hall := isLines_cons t1 (hesc hls)
      have hnc : ∀ l ∈ title :: ls.map escapeTicks, ¬ Closes 3 l := by
        intro l hl
        rcases List.mem_cons.mp hl with rfl | hl
        · exact no_ticks_open t2 (by omega)
        · exact ticks_not_closing (n := 3) (hesc hls) (by
            intro a b h
            exact escapeTicks_few e a ('`' :: b) (by rw [h]; simp [List.replicate_succ])) l hl
      have := fenced_block (n := 3) (by omega) (info := []) (by simp) (by simp) hall hnc (s := 0) (by omega)
      exact this
    · intro ls' hls'
      rw [isLines_unique hls' hls]
      rfl
  · intro hsoft
    rw [hr, renderFailed, if_neg (by simp [hsoft])]

end Tinymist.Typlite
