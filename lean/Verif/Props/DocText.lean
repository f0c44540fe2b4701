import Verif.Spec.DocText

/-!
# The text of documentation as it is shown (C135)
-/

namespace Tinymist.DocText

open Spec

theorem before_stop (stop : Char) (a b : List Char) (h : stop ∉ a) : before stop (a ++ stop :: b) = a := by
  rw [before]
  induction a with
  | nil => simp
  | cons c a ih =>
    rw [List.mem_cons, not_or] at h
    rw [List.cons_append, List.takeWhile_cons_of_pos (by simpa using Ne.symm h.1), ih h.2]

theorem after_stop (stop : Char) (a b : List Char) (h : stop ∉ a) : after stop (a ++ stop :: b) = b := by
  rw [after]
  induction a with
  | nil => simp
  | cons c a ih =>
    rw [List.mem_cons, not_or] at h
    rw [List.cons_append, List.dropWhile_cons_of_pos (by simpa using Ne.symm h.1), ih h.2]

theorem ends {cs : List Char} {a b : Char} (h1 : cs.head? = some a) (h2 : cs.getLast? = some b) (hab : a ≠ b) :
    ∃ ds, cs = a :: ds ++ [b] := by
  cases cs with
  | nil => cases h1
  | cons c cs =>
    cases h1
    rcases List.eq_nil_or_concat cs with rfl | ⟨ds, d, rfl⟩
    · rw [List.getLast?_singleton] at h2
      cases h2
      exact absurd rfl hab
    · rw [List.concat_eq_append] at h2 ⊢
      rw [← List.cons_append, List.getLast?_concat] at h2
      cases h2
      exact ⟨ds, rfl⟩

theorem strip_bare (cs : List Char) : Bare cs (strip cs) := by
  rw [strip]
  split
  · rename_i h
    rcases h with ⟨h1, h2⟩ | ⟨h1, h2⟩
    · obtain ⟨ds, rfl⟩ := ends h1 h2 (by decide)
      rw [List.cons_append, List.tail_cons, List.dropLast_concat]
      exact .braces ds
    · obtain ⟨ds, rfl⟩ := ends h1 h2 (by decide)
      rw [List.cons_append, List.tail_cons, List.dropLast_concat]
      exact .brackets ds
  · rename_i h
    refine .plain cs ?_ ?_
    · rintro ds rfl
      exact h (.inl ⟨rfl, by rw [List.getLast?_concat]⟩)
    · rintro ds rfl
      exact h (.inr ⟨rfl, by rw [List.getLast?_concat]⟩)

/-- What is shown of code is determined by it. -/
theorem bare_unique {cs a b : List Char} (h : Bare cs a) (h' : Bare cs b) : a = b := by
  have inj : ∀ (x : Char) (p q : List Char) (y : Char), x :: p ++ [y] = x :: q ++ [y] → p = q := by
    intro x p q y h
    rw [List.cons_append, List.cons_append, List.cons.injEq] at h
    exact List.append_cancel_right h.2
  generalize hc : cs = cs' at h'
  cases h with
  | braces d => cases h' with
    | braces e => exact inj _ _ _ _ hc
    | brackets e => rw [List.cons_append, List.cons_append, List.cons.injEq] at hc; exact absurd hc.1 (by decide)
    | plain _ h1 _ => exact absurd hc.symm (h1 _)
  | brackets d => cases h' with
    | braces e => rw [List.cons_append, List.cons_append, List.cons.injEq] at hc; exact absurd hc.1 (by decide)
    | brackets e => exact inj _ _ _ _ hc
    | plain _ _ h1 => exact absurd hc.symm (h1 _)
  | plain _ h1 h2 => cases h' with
    | braces e => exact absurd hc (h1 _)
    | brackets e => exact absurd hc (h2 _)
    | plain _ _ _ => exact hc

variable (res : List Char → List Char)

theorem loop_words (link : Bool) (cs rest : List Char) (h1 : '`' ∉ cs) (h2 : '[' ∉ cs) (h3 : link = true → ']' ∉ cs) :
    loop res link (cs ++ rest) = cs ++ loop res link rest := by
  induction cs with
  | nil => rfl
  | cons c cs ih =>
    rw [List.mem_cons, not_or] at h1 h2
    have h3' : link = true → ']' ≠ c ∧ ']' ∉ cs := fun hl => by
      have := h3 hl
      rw [List.mem_cons, not_or] at this
      exact this
    rw [List.cons_append, loop, if_neg (Ne.symm h1.1), if_neg (Ne.symm h2.1), if_neg, ih h1.2 h2.2 (fun hl => (h3' hl).2)]
    · rfl
    · rintro ⟨rfl, hl⟩
      exact (h3' hl).1 rfl

theorem loop_code (link : Bool) (cs rest : List Char) (h : '`' ∉ cs) :
    loop res link ('`' :: cs ++ '`' :: rest) = ('`' :: strip cs ++ ['`']) ++ loop res link rest := by
  rw [List.cons_append, loop, if_pos rfl, before_stop _ _ _ h, after_stop _ _ _ h]
  simp

theorem loop_part (link : Bool) (p : Part) (rest : List Char) (h : p.InLabel) :
    ∃ a, Part.Shown p a ∧ loop res link (p.source ++ rest) = a ++ loop res link rest := by
  match p, h with
  | .words cs, h => exact ⟨cs, .words cs, loop_words res link cs rest h.1 h.2.1 (fun _ => h.2.2)⟩
  | .code cs, h =>
    refine ⟨_, .code (strip_bare cs), ?_⟩
    rw [Part.source, List.append_assoc]
    exact loop_code res link cs rest h

theorem loop_parts (link : Bool) (ps : List Part) (rest : List Char) (h : ∀ p ∈ ps, p.InLabel) :
    ∃ a, Shown ps a ∧ loop res link (ps.flatMap Part.source ++ rest) = a ++ loop res link rest := by
  induction ps with
  | nil => exact ⟨[], .nil, rfl⟩
  | cons p ps ih =>
    obtain ⟨b, hb, hl⟩ := ih (fun q hq => h q (.tail _ hq))
    obtain ⟨a, ha, hl'⟩ := loop_part res link p (ps.flatMap Part.source ++ rest) (h p (.head _))
    refine ⟨a ++ b, .cons ha hb, ?_⟩
    rw [List.flatMap_cons, List.append_assoc, hl', hl, List.append_assoc]

theorem loop_open (link : Bool) (rest : List Char) : loop res link ('[' :: rest) = '[' :: loop res true rest := by
  rw [loop, if_neg (by decide), if_pos rfl]

theorem loop_close_link (target rest : List Char) (h : ')' ∉ target) :
    loop res true (']' :: '(' :: target ++ ')' :: rest) = ']' :: '(' :: res target ++ ')' :: loop res false rest := by
  rw [List.cons_append, List.cons_append, loop, if_neg (by decide), if_neg (by decide), if_pos ⟨rfl, rfl⟩, List.head?_cons, if_pos rfl,
    List.tail_cons, before_stop _ _ _ h, after_stop _ _ _ h]

theorem loop_close_ref (target rest : List Char) (h : ']' ∉ target) :
    loop res true (']' :: '[' :: target ++ ']' :: rest) = ']' :: '[' :: target ++ ']' :: loop res false rest := by
  rw [List.cons_append, List.cons_append, loop, if_neg (by decide), if_neg (by decide), if_pos ⟨rfl, rfl⟩,
    List.head?_cons, if_neg (by decide), if_pos rfl, List.tail_cons, before_stop _ _ _ h, after_stop _ _ _ h, if_pos (by simp)]
  simp

theorem loop_close (rest : List Char) (h1 : rest.head? ≠ some '(') (h2 : rest.head? ≠ some '[') :
    loop res true (']' :: rest) = ']' :: loop res false rest := by
  rw [loop, if_neg (by decide), if_neg (by decide), if_pos ⟨rfl, rfl⟩, if_neg h1, if_neg h2]

theorem loop_seg (s : Seg) (rest : List Char) (h : s.Valid)
    (hs : ∀ label, s = .bracket label → rest.head? ≠ some '(' ∧ rest.head? ≠ some '[') :
    ∃ a, Seg.Shown res s a ∧ loop res false (s.source ++ rest) = a ++ loop res false rest := by
  match s, h with
  | .part (.words cs), h => exact ⟨cs, .part (.words cs), loop_words res false cs rest h.1 h.2 (fun h => by cases h)⟩
  | .part (.code cs), h =>
    obtain ⟨a, ha, hl⟩ := loop_part res false (.code cs) rest h
    exact ⟨a, .part ha, hl⟩
  | .link label target, h =>
    obtain ⟨a, ha, hl⟩ := loop_parts res true label (']' :: '(' :: target ++ ')' :: rest) h.1
    refine ⟨_, .link ha, ?_⟩
    have e : Seg.source (.link label target) ++ rest =
        '[' :: (label.flatMap Part.source ++ (']' :: '(' :: target ++ ')' :: rest)) := by
      simp [Seg.source]
    rw [e, loop_open, hl, loop_close_link res target rest h.2]
    simp
  | .ref label target, h =>
    obtain ⟨a, ha, hl⟩ := loop_parts res true label (']' :: '[' :: target ++ ']' :: rest) h.1
    refine ⟨_, .ref ha, ?_⟩
    have e : Seg.source (.ref label target) ++ rest =
        '[' :: (label.flatMap Part.source ++ (']' :: '[' :: target ++ ']' :: rest)) := by
      simp [Seg.source]
    rw [e, loop_open, hl, loop_close_ref res target rest h.2]
    simp
  | .bracket label, h =>
    obtain ⟨a, ha, hl⟩ := loop_parts res true label (']' :: rest) h
    refine ⟨_, .bracket ha, ?_⟩
    have e : Seg.source (.bracket label) ++ rest = '[' :: (label.flatMap Part.source ++ (']' :: rest)) := by
      simp [Seg.source]
    obtain ⟨h1, h2⟩ := hs label rfl
    rw [e, loop_open, hl, loop_close res rest h1 h2]
    simp

theorem loop_all (segs : List Seg) (h : ∀ s ∈ segs, s.Valid) (hs : Separate segs) :
    AllShown res segs (loop res false (segs.flatMap Seg.source)) := by
  induction segs with
  | nil => rw [List.flatMap_nil, loop]; exact .nil
  | cons s segs ih =>
    have hs' : Separate segs ∧ ∀ label, s = .bracket label →
        (segs.flatMap Seg.source).head? ≠ some '(' ∧ (segs.flatMap Seg.source).head? ≠ some '[' := by
      cases s with
      | bracket label => exact ⟨hs.2, fun _ _ => hs.1⟩
      | _ => exact ⟨hs, fun _ h => by cases h⟩
    obtain ⟨a, ha, hl⟩ := loop_seg res s (segs.flatMap Seg.source) (h s (.head _)) hs'.2
    rw [List.flatMap_cons, hl]
    exact .cons ha (ih (fun t ht => h t (.tail _ ht)) hs'.1)

theorem replace_none (pat rep docs : List Char) (h : ¬ pat <:+: docs) : replaceAll pat rep docs = docs := by
  induction docs with
  | nil => rw [replaceAll]
  | cons c docs ih =>
    rw [replaceAll, if_neg]
    · rw [ih fun h' => h (h'.trans (List.suffix_cons c docs).isInfix)]
    · rintro ⟨-, hp⟩
      exact h (List.isPrefixOf_iff_prefix.mp hp).isInfix

/-- C135: documentation is shown as it is written: words, code without the marks of its kind, and links with the targets
that they resolve to.
Missing: texts whose marks are also used otherwise, and blocks of examples. -/
theorem docs_shown_partial (definition : List Char → Option (List Char)) (segs : List Seg) (h : ∀ s ∈ segs, s.Valid)
    (hs : Separate segs) (he : ¬ "```example".toList <:+: segs.flatMap Seg.source) :
    AllShown (resolveOr404 definition) segs (plain definition (segs.flatMap Seg.source)) := by
  rw [plain, replace_none _ _ _ he]
  exact loop_all _ segs h hs

theorem replace_first (pat rep a b : List Char) (hp : pat ≠ []) (h : ¬ pat <:+: a ++ pat.dropLast) :
    replaceAll pat rep (a ++ pat ++ b) = a ++ rep ++ replaceAll pat rep b := by
  induction a with
  | nil =>
    obtain ⟨c, cs, rfl⟩ := List.exists_cons_of_ne_nil hp
    simp only [List.nil_append, List.cons_append]
    rw [replaceAll, if_pos ⟨by simp, by simp⟩]
    simp
  | cons c a ih =>
    have ht : ¬ pat <:+: a ++ pat.dropLast := fun h' => h (h'.trans (List.suffix_cons c _).isInfix)
    rw [List.cons_append, List.cons_append, replaceAll, if_neg, ih ht]
    · rfl
    · rintro ⟨-, hq⟩
      apply h
      have hq := List.isPrefixOf_iff_prefix.mp hq
      have h1 : c :: (a ++ pat ++ b) = (c :: (a ++ pat.dropLast)) ++ ([pat.getLast hp] ++ b) := by
        conv => lhs; rw [← List.dropLast_concat_getLast hp]
        simp
      rw [h1] at hq
      have hlen : pat.length ≤ (c :: (a ++ pat.dropLast)).length := by
        simp only [List.length_cons, List.length_append, List.length_dropLast]
        omega
      exact (List.prefix_of_prefix_length_le hq (List.prefix_append _ _) hlen).isInfix

/-- C135: an example in the documentation is shown as a block of typst. -/
theorem example_shown (definition : List Char → Option (List Char)) (a b : List Char)
    (ha : ¬ "```example".toList <:+: a ++ "```exampl".toList) (hb : ¬ "```example".toList <:+: b)
    (hab : ¬ "```example".toList <:+: a ++ "```typ".toList ++ b) :
    plain definition (a ++ "```example".toList ++ b) = plain definition (a ++ "```typ".toList ++ b) := by
  have hd : "```example".toList.dropLast = "```exampl".toList := by decide
  rw [plain, plain, replace_first _ _ a b (by decide) (by rw [hd]; exact ha), replace_none _ _ b hb, replace_none _ _ _ hab]

example : ¬ "```example".toList <:+: "See: ".toList ++ "```exampl".toList ∧ ¬ "```example".toList <:+: " #f()```".toList ∧
    ¬ "```example".toList <:+: "See: ".toList ++ "```typ".toList ++ " #f()```".toList := by decide +kernel

/-! ## Where links lead -/

/-- C135: addresses, and links within a page, are kept. -/
theorem address_kept (definition : List Char → Option (List Char)) (link : List Char)
    (h : link.head? = some '#' ∨ "http".toList <+: link) : resolveOr404 definition link = link := by
  rw [resolveOr404, resolve, if_pos]
  · rfl
  · rcases h with h | h
    · exact .inl h
    · exact .inr (List.isPrefixOf_iff_prefix.mpr h)

theorem split_plain (head : List Char) (h : '/' ∉ head) : splitLink head = (head, []) := by
  have h1 : head.takeWhile (fun c => decide (c ≠ '/')) = head := by
    induction head with
    | nil => rfl
    | cons c l ih =>
      rw [List.mem_cons, not_or] at h
      rw [List.takeWhile_cons_of_pos (by simpa using Ne.symm h.1), ih h.2]
  have h2 : head.dropWhile (fun c => decide (c ≠ '/')) = [] := by
    clear h1
    induction head with
    | nil => rfl
    | cons c l ih =>
      rw [List.mem_cons, not_or] at h
      rw [List.dropWhile_cons_of_pos (by simpa using Ne.symm h.1), ih h.2]
  rw [splitLink, h1, h2]
  rfl

theorem split_tail (head tail : List Char) (h : '/' ∉ head) (ht : tail.head? ≠ some '/') :
    splitLink (head ++ '/' :: tail) = (head, tail) := by
  have h1 : (head ++ '/' :: tail).takeWhile (fun c => decide (c ≠ '/')) = head := before_stop '/' head tail h
  have h2 : (head ++ '/' :: tail).dropWhile (fun c => decide (c ≠ '/')) = '/' :: tail := by
    clear h1
    induction head with
    | nil => simp
    | cons c l ih =>
      rw [List.mem_cons, not_or] at h
      rw [List.cons_append, List.dropWhile_cons_of_pos (by simpa using Ne.symm h.1), ih h.2]
  rw [splitLink, h1, h2, List.dropWhile_cons_of_pos (by decide)]
  cases tail with
  | nil => rfl
  | cons c tail =>
    rw [List.dropWhile_cons_of_neg]
    simpa using ht

theorem known_pages : ∀ p ∈ pages, resolveKnown "https://typst.app/docs/".toList p.1 = some p.2 := by
  decide +kernel

theorem pages_plain : ∀ p ∈ pages, '/' ∉ p.1 ∧ p.1.head? = some '$' ∧ '#' ∉ p.2 ∧ '?' ∉ p.2 ∧ p.2.getLast? ≠ some '/' := by
  decide +kernel

/-- C135: a link to a page with a name of its own leads there. -/
theorem page_link (definition : List Char → Option (List Char)) (name address : List Char) (h : (name, address) ∈ pages) :
    resolveOr404 definition name = address ++ ['/'] := by
  obtain ⟨h1, h2, h3, h4, h5⟩ := pages_plain _ h
  rw [resolveOr404, resolve, if_neg, split_plain name h1]
  · simp only [known_pages _ h]
    rw [finish]
    simp [h3, h4, h5]
  · rintro (h' | h')
    · rw [h2] at h'
      cases h'
    · cases name with
      | nil => cases h2
      | cons c l =>
        cases h2
        rw [List.isPrefixOf_iff_prefix, show "http".toList = 'h' :: "ttp".toList from rfl, List.cons_prefix_cons] at h'
        exact absurd h'.1 (by decide)

/-- C135: and one to a place below such a page leads there. -/
theorem page_link_below (definition : List Char → Option (List Char)) (name address tail : List Char)
    (h : (name, address) ∈ pages) (ht : tail ≠ []) (hs : tail.head? ≠ some '/') (hn : '#' ∉ tail) (hq : '?' ∉ tail)
    (hl : tail.getLast? ≠ some '/') :
    resolveOr404 definition (name ++ '/' :: tail) = address ++ '/' :: tail ++ ['/'] := by
  obtain ⟨h1, h2, h3, h4, h5⟩ := pages_plain _ h
  rw [resolveOr404, resolve, if_neg, split_tail name tail h1 hs]
  · simp only [known_pages _ h]
    rw [finish, if_neg ht]
    have hlast : (address ++ '/' :: tail).getLast? ≠ some '/' := by
      obtain ⟨init, last, rfl⟩ := (List.eq_nil_or_concat tail).resolve_left ht
      rw [List.concat_eq_append, List.getLast?_concat] at hl
      rw [List.concat_eq_append, show address ++ '/' :: (init ++ [last]) = (address ++ '/' :: init) ++ [last] by simp,
        List.getLast?_concat]
      exact hl
    rw [if_pos]
    · rfl
    · refine ⟨?_, ?_, hlast⟩
      · simp [h3, hn]
      · simp [h4, hq]
  · rintro (h' | h')
    · cases name with
      | nil => cases h2
      | cons c l => cases h2; cases h'
    · cases name with
      | nil => cases h2
      | cons c l =>
        cases h2
        rw [List.isPrefixOf_iff_prefix, show "http".toList = 'h' :: "ttp".toList from rfl, List.cons_append,
          List.cons_prefix_cons] at h'
        exact absurd h'.1 (by decide)

theorem known_none (base head : List Char) (h : head.head? ≠ some '$') : resolveKnown base head = none := by
  have ne : ∀ s : List Char, s.head? = some '$' → head ≠ s := by
    rintro s hs rfl
    exact h hs
  rw [resolveKnown, if_neg (ne _ (by decide)), if_neg (ne _ (by decide)), if_neg (ne _ (by decide)),
    if_neg (ne _ (by decide)), if_neg (ne _ (by decide)), if_neg (ne _ (by decide)), if_neg (ne _ (by decide)),
    if_neg (ne _ (by decide)), if_neg (ne _ (by decide)), if_neg (ne _ (by decide)), if_neg (ne _ (by decide))]

theorem split_head (target : List Char) (h : target.head? ≠ some '$') : (splitLink target).1.head? ≠ some '$' := by
  rw [splitLink]
  cases target with
  | nil => simp
  | cons c l =>
    by_cases hc : c = '/'
    · subst hc
      rw [List.takeWhile_cons_of_neg (by decide)]
      simp
    · rw [List.takeWhile_cons_of_pos (by simpa using hc)]
      exact h

theorem resolve_foreign (definition : List Char → Option (List Char)) (base target : List Char)
    (h1 : target.head? ≠ some '#') (h2 : ¬ "http".toList <+: target) (h3 : target.head? ≠ some '$') :
    resolve definition base target = (definition (splitLink target).1).map (finish · (splitLink target).2) := by
  rw [resolve, if_neg]
  · simp only [known_none base _ (split_head target h3)]
  · rintro (h | h)
    · exact h1 h
    · exact h2 (List.isPrefixOf_iff_prefix.mp h)

/-- C135: a link to something that is defined leads to where it is described. -/
theorem definition_link (definition : List Char → Option (List Char)) (name route : List Char)
    (h1 : name.head? ≠ some '#') (h2 : ¬ "http".toList <+: name) (h3 : '/' ∉ name)
    (h4 : name ∉ pages.map Prod.fst) (h5 : definition name = some route) (h6 : '#' ∈ route) :
    resolveOr404 definition name = route := by
  have hk : resolveKnown "https://typst.app/docs/".toList name = none := by
    have ne : ∀ s, s ∈ pages.map Prod.fst → name ≠ s := by
      rintro s hs rfl
      exact h4 hs
    rw [resolveKnown, if_neg (ne _ (by decide)), if_neg (ne _ (by decide)), if_neg (ne _ (by decide)),
      if_neg (ne _ (by decide)), if_neg (ne _ (by decide)), if_neg (ne _ (by decide)), if_neg (ne _ (by decide)),
      if_neg (ne _ (by decide)), if_neg (ne _ (by decide)), if_neg (ne _ (by decide)), if_neg (ne _ (by decide))]
  rw [resolveOr404, resolve, if_neg, split_plain name h3]
  · simp only [hk, h5, Option.map_some, Option.getD_some, finish]
    simp only [if_true]
    rw [if_neg]
    rintro ⟨h, -⟩
    exact h h6
  · rintro (h | h)
    · exact h1 h
    · exact h2 (List.isPrefixOf_iff_prefix.mp h)

/-- C135, what does not hold: a link that is neither an address nor a name of the library, such as the path of a file or an
address for mail, is replaced by the page for missing pages. (Only the documentation of the library is shown this way.) -/
theorem foreign_link_lost (definition : List Char → Option (List Char)) (target : List Char)
    (h1 : target.head? ≠ some '#') (h2 : ¬ "http".toList <+: target) (h3 : target.head? ≠ some '$')
    (h4 : definition (target.takeWhile (· ≠ '/')) = none) :
    resolveOr404 definition target = "https://typst.app/docs/404.html".toList := by
  have h4' : definition (splitLink target).1 = none := h4
  rw [resolveOr404, resolve_foreign definition _ target h1 h2 h3, h4', Option.map_none, Option.getD_none]

/-- C135, what does not hold: a backtick that nothing closes is closed at the end. -/
theorem open_backtick (cs : List Char) (h : '`' ∉ cs) (hs : strip cs = cs) : loop res false ('`' :: cs) = '`' :: cs ++ ['`'] := by
  have e1 : before '`' cs = cs := by
    rw [before]
    induction cs with
    | nil => rfl
    | cons c l ih =>
      rw [List.mem_cons, not_or] at h
      have : l.takeWhile (fun c => decide (c ≠ '`')) = l := by
        clear ih hs
        have h := h.2
        induction l with
        | nil => rfl
        | cons d l ih =>
          rw [List.mem_cons, not_or] at h
          rw [List.takeWhile_cons_of_pos (by simpa using Ne.symm h.1), ih (by simp_all) h.2]
      rw [List.takeWhile_cons_of_pos (by simpa using Ne.symm h.1), this]
  have e2 : after '`' cs = [] := by
    rw [after]
    clear e1 hs
    induction cs with
    | nil => rfl
    | cons c l ih =>
      rw [List.mem_cons, not_or] at h
      rw [List.dropWhile_cons_of_pos (by simpa using Ne.symm h.1)]
      exact ih h.2
  rw [loop, if_pos rfl, e1, e2, hs, loop]

/-! ## Cases -/

/-- A sentence with code and a link: ``A `{x}` for [`text`]($text) and [notes].`` -/
def sampleDocs : List Seg :=
  [.part (.words ['A', ' ']), .part (.code ['{', 'x', '}']), .part (.words [' ', 'f', 'o', 'r', ' ']),
    .link [.code ['t', 'e', 'x', 't']] ['$', 't', 'e', 'x', 't'], .part (.words [' ', 'a', 'n', 'd', ' ']),
    .bracket [.words ['n', 'o', 't', 'e', 's']], .part (.words ['.'])]

example : (∀ s ∈ sampleDocs, s.Valid) ∧ Separate sampleDocs := by
  refine ⟨?_, ?_⟩
  · intro s hs
    simp only [sampleDocs, List.mem_cons, List.not_mem_nil, or_false] at hs
    rcases hs with rfl | rfl | rfl | rfl | rfl | rfl | rfl <;> simp [Seg.Valid, Part.InLabel]
  · simp [sampleDocs, Separate, Seg.source, Part.source]

example : loop (fun _ => ['u', 'r', 'l']) false (sampleDocs.flatMap Seg.source) =
    "A `x` for [`text`](url) and [notes].".toList := by
  decide +kernel

/-- A file named by its path. -/
example : resolveOr404 (fun _ => none) ['.', '/', 'g', '.', 'm', 'd'] = "https://typst.app/docs/404.html".toList :=
  foreign_link_lost _ _ (by decide) (by decide) (by decide) rfl

end Tinymist.DocText
