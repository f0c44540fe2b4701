import Verif.Spec.Complete
import Verif.Lemmas.RustNum
/-!
# Snippets of completions
-/
namespace Tinymist.Complete
open RustNum (print digitChar)

/-! ## Numbers -/

theorem digitChar_digit {d : Nat} (h : d < 10) : Digit (digitChar d) ∧ (digitChar d).toNat - '0'.toNat = d := by
  have : ∀ d, d < 10 → ('0'.toNat ≤ (digitChar d).toNat ∧ (digitChar d).toNat ≤ '9'.toNat) ∧
    (digitChar d).toNat - '0'.toNat = d := by decide
  exact this d h

theorem print_unfold (n : Nat) :
    print 10 n = if n < 10 then [digitChar n] else print 10 (n / 10) ++ [digitChar (n % 10)] := by
  rw [print]; simp

theorem print_digits (n : Nat) : ∀ c ∈ print 10 n, Digit c := by
  induction n using Nat.strongRecOn with
  | ind n ih =>
    rw [print_unfold]
    split
    · intro c hc
      rw [List.mem_singleton] at hc
      exact hc ▸ (digitChar_digit ‹_›).1
    · intro c hc
      rcases List.mem_append.mp hc with h | h
      · exact ih (n / 10) (by omega) c h
      · rw [List.mem_singleton] at h
        exact h ▸ (digitChar_digit (by omega)).1

theorem print_value (n : Nat) : value (print 10 n) = n := by
  induction n using Nat.strongRecOn with
  | ind n ih =>
    rw [print_unfold]
    split
    · simpa [value] using (digitChar_digit ‹n < 10›).2
    · have h1 := ih (n / 10) (by omega)
      have h2 := (digitChar_digit (d := n % 10) (by omega)).2
      unfold value at h1 ⊢
      rw [List.foldl_append, h1]
      simp only [List.foldl_cons, List.foldl_nil, h2]
      omega

theorem print_ne_nil (n : Nat) : print 10 n ≠ [] := by
  rw [print_unfold]; split <;> simp

/-! ## Holes -/

theorem closing_append {b : Text} (h : ∀ c ∈ b, c ≠ '}' ∧ c ≠ '\n') (rest : Text) :
    closing (b ++ '}' :: rest) = some (b, rest) := by
  induction b with
  | nil => simp [closing]
  | cons c b ih =>
    have hc := h c (List.mem_cons_self ..)
    rw [List.cons_append, closing, if_neg hc.1, if_neg hc.2, ih fun d hd => h d (List.mem_cons_of_mem _ hd)]
    rfl

theorem hole_gap {b : Text} (h : ∀ c ∈ b, c ≠ '}' ∧ c ≠ '\n') (rest : Text) :
    hole (['$', '{'] ++ b ++ ['}'] ++ rest) = some (b, rest) := by
  simp only [List.append_assoc, List.cons_append, List.nil_append]
  exact closing_append h rest

theorem number_hole {s b rest : Text} (h : hole s = some (b, rest)) (n : Nat) :
    number n s = ['$', '{'] ++ print 10 n ++ [':'] ++ b ++ ['}'] ++ number (n + 1) rest := by
  rw [number]
  split
  · rename_i b' r' h'
    rw [h] at h'
    cases h'
    rfl
  · rename_i h'
    rw [h] at h'
    cases h'

theorem number_nil (n : Nat) : number n [] = [] := by
  rw [number]; split
  · rename_i h; simp [hole] at h
  · rfl

theorem number_cons {c : Char} {s : Text} (h : hole (c :: s) = none) (n : Nat) :
    number n (c :: s) = c :: number n s := by
  rw [number]; split
  · rename_i h'; rw [h] at h'; cases h'
  · rfl

theorem hole_head {s b rest : Text} (h : hole s = some (b, rest)) : s.head? = some '$' := by
  unfold hole at h
  split at h
  · rfl
  · cases h

theorem number_head (n : Nat) (s : Text) : (number n s).head? = s.head? := by
  cases h : hole s with
  | some p =>
    rw [number_hole (b := p.1) (rest := p.2) h, hole_head (b := p.1) (rest := p.2) h]; rfl
  | none =>
    cases s with
    | nil => rw [number_nil]
    | cons c s => rw [number_cons h]; rfl

theorem hole_none {c : Char} {s : Text} (h : c = '$' → ∀ d r, s = d :: r → d ≠ '{') : hole (c :: s) = none := by
  unfold hole
  split
  · rename_i rest he
    injection he with h1 h2
    exact absurd rfl (h h1 _ _ h2)
  · rfl

/-- The next character of the numbered text is that of the text itself. -/
theorem next_numbered {n : Nat} {s r : Text} {d : Char} (h : number n s = d :: r) : ∃ r', s = d :: r' := by
  have := number_head n s
  rw [h] at this
  cases s with
  | nil => simp at this
  | cons c s => simp at this; exact ⟨s, by rw [this]⟩

theorem shows_fixed {next out : Text} {st : List (Nat × Text)} {n : Nat} (t : Text) (hc : Calm next t)
    (h : Shows (number n next) out st) : Shows (number n (t ++ next)) (t ++ out) st := by
  induction t with
  | nil => exact h
  | cons c t ih =>
    obtain ⟨h1, h2, h3⟩ := hc
    have hn : hole (c :: (t ++ next)) = none := hole_none fun e d r hr => (h1 e d r hr).2.2
    rw [List.cons_append, number_cons hn]
    by_cases hd : c = '$'
    · subst hd
      exact .dollar _ _ _ (fun d r hr => by obtain ⟨r', hr'⟩ := next_numbered hr; exact h1 rfl d r' hr') (ih h3)
    · by_cases hb : c = '\\'
      · subst hb
        exact .backslash _ _ _ (fun d r hr => by obtain ⟨r', hr'⟩ := next_numbered hr; exact h2 rfl d r' hr') (ih h3)
      · exact .char _ _ _ _ hd hb (ih h3)

/-- **C99.** Accepting a snippet shows its fixed text and the texts of its holes, which are visited from the front to
the back, numbered from `n`. -/
theorem numbered_shows (ps : List Piece) (n : Nat) (h : Plain ps) :
    Shows (number n (source ps)) (shown ps) (stops n ps) := by
  induction ps generalizing n with
  | nil => simp only [source, shown, stops, List.flatMap_nil, number_nil]; exact .nil
  | cons p ps ih =>
    cases p with
    | fixed t => exact shows_fixed t h.1 (ih n h.2)
    | gap b =>
      have hb : ∀ c ∈ b, c ≠ '}' ∧ c ≠ '\n' :=
        fun c hc => ⟨fun e => (h.1 c hc).1 (.inr (.inr e)), (h.1 c hc).2⟩
      have e : source (.gap b :: ps) = ['$', '{'] ++ b ++ ['}'] ++ source ps := rfl
      rw [e, number_hole (hole_gap hb _)]
      have := Shows.placeholder (print 10 n) b _ _ _ (print_ne_nil n) (print_digits n) (fun c hc => (h.1 c hc).1)
        (ih (n + 1) h.2)
      rw [print_value] at this
      simpa [shown, Piece.shown, stops] using this

/-- **C99.** The snippet of a completion is shown as it is meant: fixed text as it is, holes with their texts, visited in
their order, if no fixed text means something to the editor. -/
theorem snippet_shown_partial (ps : List Piece) (h : Plain ps) :
    Shows (toLspSnippet (source ps)) (shown ps) (stops 1 ps) := numbered_shows ps 1 h

/-! ## Built-in snippets -/

instance (c : Char) : Decidable (Digit c) := inferInstanceAs (Decidable (_ ∧ _))
instance (c : Char) : Decidable (NameStart c) := inferInstanceAs (Decidable (_ ∨ _))
instance (c : Char) : Decidable (Special c) := inferInstanceAs (Decidable (_ ∨ _))

/-- Checks `Calm`. -/
def calmB (next : Text) : Text → Bool
  | [] => true
  | c :: t =>
    (match t ++ next with
      | [] => true
      | d :: _ => (c ≠ '$' || (!decide (Digit d) && !decide (NameStart d) && d ≠ '{')) &&
          (c ≠ '\\' || !decide (Special d))) && calmB next t

theorem calm_of_calmB {next t : Text} (h : calmB next t = true) : Calm next t := by
  induction t with
  | nil => trivial
  | cons c t ih =>
    rw [calmB, Bool.and_eq_true] at h
    refine ⟨fun e d r hr => ?_, fun e d r hr => ?_, ih h.2⟩
    · have := h.1
      rw [hr] at this
      simp [e] at this
      exact ⟨this.1.1, this.1.2, this.2⟩
    · have := h.1
      rw [hr] at this
      simp [e] at this
      exact this

/-- Checks `Plain`. -/
def plainB : List Piece → Bool
  | [] => true
  | .fixed t :: ps => calmB (source ps) t && plainB ps
  | .gap b :: ps => b.all (fun c => !decide (Special c) && c ≠ '\n') && plainB ps

theorem plain_of_plainB {ps : List Piece} (h : plainB ps = true) : Plain ps := by
  induction ps with
  | nil => trivial
  | cons p ps ih =>
    cases p with
    | fixed t =>
      rw [plainB, Bool.and_eq_true] at h
      exact ⟨calm_of_calmB h.1, ih h.2⟩
    | gap b =>
      rw [plainB, Bool.and_eq_true, List.all_eq_true] at h
      exact ⟨fun c hc => by simpa using h.1 c hc, ih h.2⟩

/-- Reads a snippet: `t` is the fixed text so far, `b` that of a hole; both are reversed. -/
def pieces (t : Text) (b : Option Text) : Text → List Piece
  | [] => [.fixed t.reverse]
  | c :: s =>
    match b, c with
    | some b, '}' => .fixed t.reverse :: .gap b.reverse :: pieces [] none s
    | some b, c => pieces t (some (c :: b)) s
    | none, '{' =>
      match t with
      | '$' :: t => pieces t (some []) s
      | t => pieces ('{' :: t) none s
    | none, c => pieces (c :: t) none s

/-- **C99.** The built-in snippets are shown as they are meant. -/
theorem builtin_shown (label snippet : String) (h : (label, snippet) ∈ defaultPrefix ++ defaultPostfix) :
    ∃ ps, snippet.toList = source ps ∧ Plain ps ∧ Shows (toLspSnippet snippet.toList) (shown ps) (stops 1 ps) := by
  have all : (defaultPrefix ++ defaultPostfix).all fun e =>
      decide (e.2.toList = source (pieces [] none e.2.toList)) && plainB (pieces [] none e.2.toList) := by decide +kernel
  have := List.all_eq_true.mp all _ h
  simp only [Bool.and_eq_true, decide_eq_true_eq] at this
  refine ⟨_, this.1, plain_of_plainB this.2, ?_⟩
  have key := snippet_shown_partial _ (plain_of_plainB this.2)
  rwa [← this.1] at key

/-- Typst's own snippet `${x}_${2:2}` numbers its second hole; here the number becomes a part of the text: accepting
"subscript" inserts `x_2:2`. -/
theorem subscript_doubled : ("subscript", "${x}_${2:2}") ∈ defaultPrefix ∧
    Shows (toLspSnippet "${x}_${2:2}".toList) "x_2:2".toList [(1, ['x']), (2, ['2', ':', '2'])] := by
  refine ⟨by decide, ?_⟩
  exact snippet_shown_partial [.gap ['x'], .fixed ['_'], .gap ['2', ':', '2']] (plain_of_plainB (by decide))

theorem dollar_lost_aux {s out : Text} {st : List (Nat × Text)} (h : Shows s out st) (hs : ['$', 'x', '$'] = s)
    (ho : ['$', 'x', '$'] = out) : False := by
  cases h with
  | nil => cases hs
  | char _ _ _ _ h =>
    injection hs with h1
    exact h h1.symm
  | escape =>
    injection hs with h1
    exact absurd h1 (by decide)
  | backslash =>
    injection hs with h1
    exact absurd h1 (by decide)
  | placeholder =>
    injection hs with _ h2
    injection h2 with h2
    exact absurd h2 (by decide)
  | stop ds _ _ _ hd hall =>
    cases ds with
    | nil => exact hd rfl
    | cons d ds =>
      injection hs with _ h2
      injection h2 with h2
      have := hall d (List.mem_cons_self ..)
      rw [← h2] at this
      exact absurd this (by decide)
  | «variable» a n s out st ha =>
    injection ho with h1
    rw [← h1] at ha
    exact absurd ha (by decide)
  | dollar _ _ _ h =>
    injection hs with _ h2
    exact (h 'x' _ h2.symm).2.1 (by decide)

/-- Text that is taken from the document, like `$x$`, is not escaped: its dollar sign is lost. -/
theorem dollar_lost : Shows (toLspSnippet ['$', 'x', '$']) ['x', '$'] [] ∧
    ∀ st, ¬ Shows (toLspSnippet ['$', 'x', '$']) ['$', 'x', '$'] st := by
  have e : toLspSnippet ['$', 'x', '$'] = ['$', 'x', '$'] := by
    simp [toLspSnippet, number_cons, number_nil, hole]
  rw [e]
  constructor
  · exact .variable 'x' [] ['$'] ['$'] [] (by decide) (by simp) (fun c r h => by
      simp only [List.cons.injEq] at h; rw [← h.1]; decide) (.dollar _ _ _ (by simp) .nil)
  · exact fun st h => dollar_lost_aux h rfl rfl

/-! ## Documentation of functions -/

theorem digit_not {c : Char} (h : Digit c) : c ≠ '{' ∧ c ≠ '$' ∧ c ≠ '\\' := by
  refine ⟨?_, ?_, ?_⟩ <;> (intro e; subst e; revert h; decide)

/-- Text without dollar signs and backslashes is shown as it is. -/
theorem shows_quiet {t next out : Text} {st : List (Nat × Text)} (ht : ∀ c ∈ t, c ≠ '$' ∧ c ≠ '\\')
    (h : Shows next out st) : Shows (t ++ next) (t ++ out) st := by
  induction t with
  | nil => exact h
  | cons c t ih =>
    have hc := ht c (List.mem_cons_self ..)
    exact .char _ _ _ _ hc.1 hc.2 (ih fun d hd => ht d (List.mem_cons_of_mem _ hd))

theorem shows_stop {n : Nat} {next out : Text} {st : List (Nat × Text)} (hn : ∀ c r, next = c :: r → ¬ Digit c)
    (h : Shows next out st) : Shows ('$' :: print 10 n ++ next) out ((n, []) :: st) := by
  have := Shows.stop _ _ _ _ (print_ne_nil n) (print_digits n) hn h
  rwa [print_value] at this

theorem docParams_shows (params : List Text) (h : ∀ p ∈ params, ∀ c ∈ p, c ≠ '$' ∧ c ≠ '\\') (i : Nat) :
    Shows (docParams i params) (docLines params) ((List.range' (i + 1) (2 * params.length + 1)).map fun n => (n, [])) := by
  induction params generalizing i with
  | nil =>
    rw [docParams, show (docLines ([] : List Text)) = ['\n', '/', '/', '/', ' ', '-', '>', ' '] ++ [] from rfl]
    refine shows_quiet (by decide) ?_
    have := shows_stop (n := i + 1) (next := []) (by simp) .nil
    simpa using this
  | cons p ps ih =>
    have ih := ih (fun q hq => h q (List.mem_cons_of_mem _ hq)) (i + 2)
    have hp := h p (List.mem_cons_self ..)
    have e : (List.range' (i + 1) (2 * (p :: ps).length + 1)).map (fun n => ((n, []) : Nat × Text)) =
        (i + 1, []) :: (i + 2, []) :: (List.range' (i + 2 + 1) (2 * ps.length + 1)).map fun n => (n, []) := by
      rw [show 2 * (p :: ps).length + 1 = (2 * ps.length + 1) + 1 + 1 by simp; omega, List.range'_succ, List.range'_succ]
      rfl
    rw [e, docParams, docLines]
    simp only [List.append_assoc]
    refine shows_quiet (by decide) (shows_quiet hp (shows_quiet (by decide) ?_))
    have hnl : ∀ c r, docParams (i + 2) ps = c :: r → ¬ Digit c := by
      intro c r hr
      have : c = '\n' := by cases ps <;> (simp [docParams] at hr; exact hr.1.symm)
      rw [this]; decide
    have := shows_stop (n := i + 1) (next := [')', ':', ' '] ++ ('$' :: print 10 (i + 2) ++ docParams (i + 2) ps))
      (by intro c r hr; have : c = ')' := by { simp at hr; exact hr.1.symm }
          rw [this]; decide)
      (shows_quiet (t := [')', ':', ' ']) (by decide) (shows_stop hnl ih))
    simpa using this

theorem number_quiet (n : Nat) {t : Text} (next : Text) (ht : ∀ c ∈ t, c ≠ '$') :
    number n (t ++ next) = t ++ number n next := by
  induction t with
  | nil => rfl
  | cons c t ih =>
    rw [List.cons_append, number_cons (hole_none fun e => absurd e (ht c (List.mem_cons_self ..))),
      ih fun d hd => ht d (List.mem_cons_of_mem _ hd)]
    rfl

theorem number_stop (n k : Nat) (next : Text) :
    number n ('$' :: print 10 k ++ next) = '$' :: print 10 k ++ number n next := by
  have hd := print_digits k
  rw [List.cons_append, number_cons, number_quiet n next fun c hc => (digit_not (hd c hc)).2.1]
  · rfl
  · refine hole_none fun _ d r hr => ?_
    cases hp : print 10 k with
    | nil => exact absurd hp (print_ne_nil k)
    | cons e es =>
      rw [hp] at hr
      have : e = d := by simp at hr; exact hr.1
      rw [← this]
      exact (digit_not (hd e (by rw [hp]; exact List.mem_cons_self ..))).1

theorem number_docParams (n i : Nat) (params : List Text) (h : ∀ p ∈ params, ∀ c ∈ p, c ≠ '$' ∧ c ≠ '\\') :
    number n (docParams i params) = docParams i params := by
  induction params generalizing i with
  | nil =>
    rw [docParams, number_quiet n _ (by decide)]
    have := number_stop n (i + 1) []
    rw [List.append_nil, number_nil, List.append_nil] at this
    rw [this]
  | cons p ps ih =>
    rw [docParams]
    simp only [List.append_assoc]
    rw [number_quiet n _ (by decide), number_quiet n _ fun c hc => (h p (List.mem_cons_self ..) c hc).1,
      number_quiet n _ (by decide), number_stop, number_quiet n _ (by decide), number_stop,
      ih _ fun q hq => h q (List.mem_cons_of_mem _ hq)]

/-- **C99.** "Document function" inserts a line for each parameter and one for the result; the tab stops are the summary,
the type and the description of each parameter in their order, and the type of the result. -/
theorem document_function (space : Bool) (params : List Text) (h : ∀ p ∈ params, ∀ c ∈ p, c ≠ '$' ∧ c ≠ '\\') :
    Shows (toLspSnippet (docSnippet space params)) ((if space then [] else [' ']) ++ '\n' :: '/' :: '/' :: '/' :: docLines params)
      ((List.range (2 * params.length + 2)).map fun n => (n, [])) := by
  have p0 : print 10 0 = ['0'] := by rw [print_unfold]; rfl
  have e : toLspSnippet (docSnippet space params) = docSnippet space params := by
    unfold docSnippet toLspSnippet
    rw [List.append_assoc, number_quiet 1 _ (by cases space <;> decide)]
    have h0 : ['$', '0', '\n', '/', '/', '/'] ++ docParams 0 params =
        '$' :: print 10 0 ++ (['\n', '/', '/', '/'] ++ docParams 0 params) := by rw [p0]; rfl
    rw [h0, number_stop, number_quiet 1 _ (by decide), number_docParams _ _ _ h]
  rw [e]
  have h1 := shows_quiet (t := ['\n', '/', '/', '/']) (by decide) (docParams_shows params h 0)
  have h2 := shows_stop (n := 0) (by intro c r hr; have : c = '\n' := by { simp at hr; exact hr.1.symm }
                                     rw [this]; decide) h1
  have h3 := shows_quiet (t := if space then [] else [' ']) (by cases space <;> decide) h2
  have h0 : (List.range (2 * params.length + 2)).map (fun n => ((n, []) : Nat × Text)) =
      (0, []) :: (List.range' (0 + 1) (2 * params.length + 1)).map fun n => (n, []) := by
    rw [List.range_eq_range', List.range'_succ]; rfl
  rw [h0]
  unfold docSnippet
  simpa [p0] using h3

/-- `f(${a}, ${})`: two holes. -/
example : Shows (toLspSnippet ['f', '(', '$', '{', 'a', '}', ',', ' ', '$', '{', '}', ')']) ['f', '(', 'a', ',', ' ', ')'] [(1, ['a']), (2, [])] :=
  snippet_shown_partial [.fixed ['f', '('], .gap ['a'], .fixed [',', ' '], .gap [], .fixed [')']] (plain_of_plainB (by decide))

end Tinymist.Complete
