import Verif.Lemmas.Pages
import Verif.Spec.OnEnter
import Verif.Props.Position

/-!
# C46: pressing Enter continues comments and math blocks
-/

namespace Tinymist.OnEnter

open Position (Text len8 Pos Plain Encoding)

theorem lineStart_eq {before line : Text} (h : OnLine before line) : lineStart before = line := by
  obtain ⟨hn, h⟩ := h
  have hall : ∀ c ∈ line.reverse, decide (c ≠ '\n') = true := by
    intro c hc
    rw [List.mem_reverse] at hc
    simp only [decide_eq_true_eq]
    intro e; exact hn (e ▸ hc)
  unfold lineStart
  rcases h with rfl | ⟨up, rfl⟩
  · have := List.takeWhile_append_of_pos (l₂ := []) hall
    simp only [List.append_nil, List.takeWhile_nil] at this
    rw [this, List.reverse_reverse]
  · rw [List.reverse_append, List.reverse_cons, List.append_assoc, List.takeWhile_append_of_pos hall]
    simp

theorem onLine_exists (before : Text) : ∃ line, OnLine before line := by
  induction before with
  | nil => exact ⟨[], by simp [OnLine]⟩
  | cons c before ih =>
    obtain ⟨line, hn, h⟩ := ih
    rcases h with rfl | ⟨up, rfl⟩
    · by_cases hc : c = '\n'
      · exact ⟨before, hn, .inr ⟨[], by simp [hc]⟩⟩
      · exact ⟨c :: before, by simp [hn, Ne.symm hc], .inl rfl⟩
    · exact ⟨line, hn, .inr ⟨c :: up, rfl⟩⟩

theorem slashes (text : Text) : text.takeWhile (fun c => c = '/') = List.replicate (text.takeWhile (fun c => c = '/')).length '/' := by
  rw [List.eq_replicate_iff]
  refine ⟨rfl, fun c hc => ?_⟩
  have := List.all_takeWhile (p := fun c => decide (c = '/')) (l := text)
  rw [List.all_eq_true] at this
  simpa using this c hc

/-- The marker found is the longest one. -/
theorem prefix_marker {text m : Text} (h : HasMarker text m) : commentPrefix text = m := by
  obtain ⟨⟨n, hn, hm⟩, rest, e, hmax⟩ := h
  have rep : ∀ (n : Nat) (t : Text), (∀ x, t.head? = some x → x ≠ '/') →
      (List.replicate n '/' ++ t).takeWhile (fun c => decide (c = '/')) = List.replicate n '/' ∧
      (List.replicate n '/' ++ t).dropWhile (fun c => decide (c = '/')) = t := by
    intro n t ht
    have hall : ∀ c ∈ List.replicate n '/', decide (c = '/') = true := by
      intro c hc; simp only [decide_eq_true_eq]; exact (List.mem_replicate.mp hc).2
    rw [List.takeWhile_append_of_pos hall, List.dropWhile_append_of_pos hall]
    cases t with
    | nil => simp
    | cons x t =>
      have := ht x rfl
      simp [this]
  unfold commentPrefix
  rcases hm with rfl | rfl
  · -- the rest starts neither with a slash nor with an exclamation mark
    have h1 : ∀ x, rest.head? = some x → x ≠ '/' := by
      intro x hx e'
      cases rest with
      | nil => cases hx
      | cons y rest =>
        cases hx; subst e'
        have := hmax (List.replicate (n + 1) '/') rest ⟨n + 1, by omega, .inl rfl⟩ (by
          rw [e, List.replicate_succ']; simp)
        simp at this; omega
    have h2 : rest.head? ≠ some '!' := by
      intro hx
      cases rest with
      | nil => cases hx
      | cons y rest =>
        cases hx
        have := hmax (List.replicate n '/' ++ ['!']) rest ⟨n, hn, .inr rfl⟩ (by rw [e]; simp)
        simp at this; omega
    rw [e, (rep n rest h1).1, (rep n rest h1).2, if_neg h2, List.append_nil]
  · rw [e, List.append_assoc]
    have := rep n (['!'] ++ rest) (by intro x hx; simp at hx; subst hx; decide)
    rw [this.1, this.2]
    simp

theorem takeWhile_run {α : Type} {p : α → Bool} {g r : List α} (hg : ∀ s ∈ g, p s = true)
    (hr : ∀ s, r.head? = some s → p s = false) : (g ++ r).takeWhile p = g := by
  rw [List.takeWhile_append_of_pos hg]
  cases r with
  | nil => simp
  | cons x r => simp [hr x rfl]

/-- The count is that of the comments in the group. -/
theorem groupCount_eq {siblings group : List Sibling} {index : Nat} (h : Group siblings index group) :
    groupCount siblings index = (group.filter (fun s => s = .comment)).length := by
  obtain ⟨l, r, rfl, h1, h2, hg, hl, hr⟩ := h
  have hg' : ∀ s ∈ group, skips s = true := by intro s hs; simp [skips, hg s hs]
  have hlen : ((l ++ group ++ r).take index).reverse.takeWhile skips = (group.take (index - l.length)).reverse := by
    have : (l ++ group ++ r).take index = l ++ group.take (index - l.length) := by
      rw [List.append_assoc, List.take_append, List.take_of_length_le (by omega), List.take_append_of_le_length (by omega)]
    rw [this, List.reverse_append]
    apply takeWhile_run
    · intro s hs
      exact hg' s (List.mem_of_mem_take (List.mem_reverse.mp hs))
    · intro s hs
      rw [List.head?_reverse] at hs
      simp [skips, hl s hs]
  unfold groupCount
  simp only [hlen, List.length_reverse, List.length_take]
  have e : index - min (index - l.length) group.length = l.length := by omega
  rw [e, List.append_assoc, List.drop_left, takeWhile_run hg' (by intro s hs; simp [skips, hr s hs])]

/-- **C46, when a comment is continued.** Enter continues a comment iff it is a documentation comment or stands next to
another comment. -/
theorem continued_iff {before text marker : Text} {siblings group : List Sibling} {index : Nat}
    (hm : HasMarker text marker) (hg : Group siblings index group) :
    (∃ w, enterComment before text siblings index = some w) ↔
      marker ≠ ['/', '/'] ∨ 2 ≤ (group.filter (fun s => s = .comment)).length := by
  unfold enterComment
  rw [prefix_marker hm, groupCount_eq hg]
  by_cases h : (group.filter (fun s => s = .comment)).length ≤ 1 ∧ marker = ['/', '/']
  · rw [if_pos h]
    constructor
    · rintro ⟨w, hw⟩; cases hw
    · rintro (h' | h')
      · exact absurd h.2 h'
      · omega
  · rw [if_neg h]
    refine ⟨fun _ => ?_, fun _ => ⟨_, rfl⟩⟩
    by_cases hm : marker = ['/', '/']
    · right
      rcases Nat.lt_or_ge 1 (group.filter (fun s => s = .comment)).length with h' | h'
      · exact h'
      · exact absurd ⟨h', hm⟩ h
    · exact .inl hm

theorem dollar_marker {m : Text} (h : IsMarker m) : '$' ∉ m ∧ '\\' ∉ m := by
  obtain ⟨n, _, rfl | rfl⟩ := h <;> simp

/-- **C46, what is inserted in a comment.** One new line, on which as many spaces as there are characters in front of
the comment, the comment's marker and a space are followed by the cursor. -/
theorem comment_insertion {before text marker line w : Text} {siblings : List Sibling} {index : Nat}
    (hm : HasMarker text marker) (hl : OnLine before line) (h : enterComment before text siblings index = some w) :
    Snippet w ('\n' :: List.replicate line.length ' ' ++ marker ++ [' ']) [] := by
  unfold enterComment at h
  rw [prefix_marker hm] at h
  split at h
  · cases h
  · cases h
    have := dollar_marker hm.1
    refine ⟨by simp [indentOf, lineStart_eq hl], ?_, by simp, ?_, by simp⟩
    · simp [this.1]
    · simp [this.2]

theorem dollars (text : Text) : ∃ n, text = List.replicate n '$' ++ text.dropWhile (fun c => c = '$') := by
  induction text with
  | nil => exact ⟨0, rfl⟩
  | cons c t ih =>
    by_cases h : c = '$'
    · obtain ⟨n, hn⟩ := ih
      refine ⟨n + 1, ?_⟩
      rw [List.dropWhile_cons_of_pos (by simpa using h), List.replicate_succ, List.cons_append, ← hn, h]
    · exact ⟨0, by rw [List.dropWhile_cons_of_neg (by simpa using h)]; rfl⟩

theorem content_around (text : Text) : ∃ m n, text = List.replicate m '$' ++ mathContent text ++ List.replicate n '$' := by
  obtain ⟨m, hm⟩ := dollars text
  obtain ⟨n, hn⟩ := dollars (text.dropWhile (fun c => c = '$')).reverse
  refine ⟨m, n, ?_⟩
  have := congrArg List.reverse hn
  rw [List.reverse_reverse, List.reverse_append, List.reverse_replicate] at this
  rw [mathContent, List.append_assoc, ← this, ← hm]

theorem content_blank {m n : Nat} {blank : Text} (h : ∀ c ∈ blank, Pages.Space c) :
    mathContent (List.replicate m '$' ++ blank ++ List.replicate n '$') = blank := by
  have hd : ∀ c ∈ blank, c ≠ '$' := fun c hc e => by have := h c hc; rw [e] at this; revert this; unfold Pages.Space; decide
  have rep : ∀ k, ∀ c ∈ List.replicate k '$', decide (c = '$') = true := by
    intro k c hc; simpa using (List.mem_replicate.mp hc).2
  have stop : ∀ (l : Text), (∀ c ∈ l, c ≠ '$') → ∀ r, l ≠ [] → (l ++ r).dropWhile (fun c => decide (c = '$')) = l ++ r := by
    intro l hl r hne
    cases l with
    | nil => exact (hne rfl).elim
    | cons x l =>
      rw [List.cons_append, List.dropWhile_cons_of_neg]
      simpa using hl x (List.mem_cons_self ..)
  rw [mathContent, List.append_assoc, List.dropWhile_append_of_pos (rep m)]
  by_cases hb : blank = []
  · subst hb
    have e : (List.replicate n '$').dropWhile (fun c => decide (c = '$')) = [] := by
      have := List.dropWhile_append_of_pos (l₂ := []) (rep n)
      simpa using this
    rw [List.nil_append, e]; rfl
  · rw [stop blank hd _ hb, List.reverse_append, List.reverse_replicate, List.dropWhile_append_of_pos (rep n)]
    have := stop blank.reverse (fun c hc => hd c (List.mem_reverse.mp hc)) [] (by simpa using hb)
    rw [List.append_nil] at this
    rw [this, List.reverse_reverse]

theorem empty_iff (text : Text) : Empty text ↔ Pages.trim (mathContent text) = [] := by
  constructor
  · rintro ⟨m, blank, n, rfl, h⟩
    rw [content_blank h]
    exact Pages.trim_blank h
  · intro h
    obtain ⟨m, n, e⟩ := content_around text
    refine ⟨m, mathContent text, n, e, ?_⟩
    obtain ⟨a, b, ha, hb, e⟩ := Pages.trim_spec (mathContent text)
    rw [h] at e
    rw [e]
    intro c hc
    simp only [List.append_nil, List.mem_append] at hc
    rcases hc with hc | hc
    · exact ha c hc
    · exact hb c hc

theorem newline_content (text : Text) : '\n' ∈ mathContent text ↔ '\n' ∈ text := by
  obtain ⟨m, n, e⟩ := content_around text
  conv => rhs; rw [e]
  simp

/-- Which equations are opened: those without content, if the cursor is in them. -/
theorem math_iff (before text : Text) (stop : Nat) :
    (∃ w, enterMath before text stop = some w) ↔
      (len8 before ≤ stop ∧ stop < len8 before + len8 text) ∧ Empty text := by
  rw [empty_iff]
  unfold enterMath
  by_cases h1 : len8 before ≤ stop ∧ stop < len8 before + len8 text
  · rw [if_neg (fun h => h h1)]
    by_cases h2 : Pages.trim (mathContent text) = []
    · rw [if_neg (fun h => h h2)]
      constructor
      · exact fun _ => ⟨h1, h2⟩
      · intro _; split <;> exact ⟨_, rfl⟩
    · rw [if_pos h2]
      exact ⟨(fun ⟨_, h⟩ => nomatch h), fun ⟨_, h⟩ => (h2 h).elim⟩
  · rw [if_pos h1]
    exact ⟨(fun ⟨_, h⟩ => nomatch h), fun ⟨h, _⟩ => (h1 h).elim⟩

/-- What is inserted in an empty equation: the cursor's line is indented by two more than the equation, and what follows
is on a line of its own, as far in as the equation. -/
theorem math_insertion {before text line w : Text} {stop : Nat} (hl : OnLine before line)
    (h : enterMath before text stop = some w) :
    Snippet w ('\n' :: List.replicate (line.length + 2) ' ')
      (if '\n' ∈ text then [] else '\n' :: List.replicate line.length ' ') := by
  unfold enterMath at h
  simp only [newline_content] at h
  split at h
  · cases h
  · split at h
    · cases h
    · have e : List.replicate (line.length + 2) ' ' = List.replicate line.length ' ' ++ [' ', ' '] := by
        rw [← List.replicate_append_replicate]; rfl
      split at h
      · rename_i h3
        cases h
        rw [if_neg h3]
        refine ⟨by simp [indentOf, lineStart_eq hl, e], by simp, by simp, by simp, by simp⟩
      · rename_i h3
        cases h
        rw [Decidable.not_not] at h3
        rw [if_pos h3]
        refine ⟨by simp [indentOf, lineStart_eq hl, e], by simp, by simp, by simp, by simp⟩

/-- The edit covers the selection: applied by the client, it leaves the rest of the document as it is. -/
theorem edit_in_place {enc : Encoding} {pre sel post : Text} {find : Nat → Option Case} {c : Case} {w : Text}
    {l1 c1 l2 c2 : Nat} (hp : Plain enc (pre ++ sel ++ post)) (h1 : Pos enc (pre ++ sel ++ post) l1 c1 (sel ++ post))
    (h2 : Pos enc (pre ++ sel ++ post) l2 c2 post) (hf : find (len8 pre) = some c)
    (hw : insertion c (len8 (pre ++ sel)) = some w) :
    ∃ e, request enc (pre ++ sel ++ post) find ((l1, c1), (l2, c2)) = some e ∧
      Position.ClientChange enc (pre ++ sel ++ post) e (pre ++ w ++ post) := by
  have p1 := Position.pos_offset (pre := pre) h1 hp (by simp)
  have p2 := Position.pos_offset (pre := pre ++ sel) h2 hp rfl
  refine ⟨⟨some ((l1, c1), (l2, c2)), w⟩, ?_, .range pre sel post w l1 c1 l2 c2 h1 h2⟩
  simp only [request, Position.toTypstRange, p1.1, p2.1, hf, hw, p1.2, p2.2, Option.bind_eq_bind, Option.bind_some,
    Option.pure_def]

/-- **C46 for comments, partial.** Enter with a selection inside a document, where the tree says that the cursor is in a
comment: the client's document becomes the text before the selection, a new line that begins like the comment's line
and repeats its marker, the cursor, and the text after the selection. It is partial in that the comment's line must
begin with nothing but spaces before the comment; see `tab_becomes_space`. -/
theorem comment_continues_partial {enc : Encoding} {pre sel post : Text} {find : Nat → Option Case}
    {before text marker line : Text} {siblings group : List Sibling} {index l1 c1 l2 c2 : Nat}
    (hp : Plain enc (pre ++ sel ++ post)) (h1 : Pos enc (pre ++ sel ++ post) l1 c1 (sel ++ post))
    (h2 : Pos enc (pre ++ sel ++ post) l2 c2 post) (hf : find (len8 pre) = some (.comment before text siblings index))
    (hm : HasMarker text marker) (hg : Group siblings index group)
    (hc : marker ≠ ['/', '/'] ∨ 2 ≤ (group.filter (fun s => s = .comment)).length)
    (hl : OnLine before line) (hsp : ∀ c ∈ line, c = ' ') :
    ∃ e w, request enc (pre ++ sel ++ post) find ((l1, c1), (l2, c2)) = some e ∧
      Position.ClientChange enc (pre ++ sel ++ post) e (pre ++ w ++ post) ∧
      Snippet w ('\n' :: line ++ marker ++ [' ']) [] := by
  obtain ⟨w, hw⟩ := (continued_iff (before := before) hm hg).mpr hc
  obtain ⟨e, he, hcl⟩ := edit_in_place hp h1 h2 hf (w := w) hw
  refine ⟨e, w, he, hcl, ?_⟩
  have := comment_insertion hm hl hw
  rwa [← List.eq_replicate_iff.mpr ⟨rfl, hsp⟩] at this

/-- **C46 for equations.** Enter in an equation without content, likewise; the selection ends in the equation. -/
theorem math_opens {enc : Encoding} {pre sel post : Text} {find : Nat → Option Case} {before text line : Text}
    {l1 c1 l2 c2 : Nat}
    (hp : Plain enc (pre ++ sel ++ post)) (h1 : Pos enc (pre ++ sel ++ post) l1 c1 (sel ++ post))
    (h2 : Pos enc (pre ++ sel ++ post) l2 c2 post) (hf : find (len8 pre) = some (.equation before text))
    (hl : OnLine before line)
    (hin : len8 before ≤ len8 (pre ++ sel) ∧ len8 (pre ++ sel) < len8 before + len8 text) (he : Empty text) :
    ∃ e w, request enc (pre ++ sel ++ post) find ((l1, c1), (l2, c2)) = some e ∧
      Position.ClientChange enc (pre ++ sel ++ post) e (pre ++ w ++ post) ∧
      Snippet w ('\n' :: List.replicate (line.length + 2) ' ')
        (if '\n' ∈ text then [] else '\n' :: List.replicate line.length ' ') := by
  obtain ⟨w, hw⟩ := (math_iff before text _).mpr ⟨hin, he⟩
  obtain ⟨e, he, hcl⟩ := edit_in_place hp h1 h2 hf (w := w) hw
  exact ⟨e, w, he, hcl, math_insertion hl hw⟩

/-- **C46, no content is touched.** Enter in an equation with content is left to the editor. -/
theorem math_content_kept {enc : Encoding} {doc : Text} {find : Nat → Option Case} {before text : Text} {range}
    (hf : ∀ o, find o = some (.equation before text)) (he : ¬ Empty text) : request enc doc find range = none := by
  have : ∀ stop, insertion (.equation before text) stop = none := by
    intro stop
    cases h : enterMath before text stop with
    | none => exact h
    | some w => exact (he ((math_iff before text stop).mp ⟨w, h⟩).2).elim
  cases hr : Position.toTypstRange enc doc range with
  | none => simp [request, hr]
  | some r => simp [request, hr, hf, this]

/-- Meets the hypotheses: a documentation comment in a block, alone in its group. -/
example : HasMarker "/// a".toList "///".toList ∧ Group [.other, .space, .comment, .space, .other] 2 [.space, .comment, .space] ∧
    OnLine "#{\n  ".toList "  ".toList := by
  refine ⟨⟨⟨3, by decide, .inl rfl⟩, " a".toList, rfl, ?_⟩, ⟨[.other], [.other], rfl, by decide, by decide, by decide, ?_, ?_⟩,
    by decide, .inr ⟨"#{".toList, rfl⟩⟩
  · rintro m' rest ⟨n, hn, rfl | rfl⟩ e
    · match n, hn, e with
      | 2, _, _ => decide
      | 3, _, _ => decide
      | n + 4, _, e => simp [List.replicate_succ] at e
    · match n, hn, e with
      | 2, _, _ => decide
      | 3, _, e => simp [List.replicate_succ] at e
      | n + 4, _, e => simp [List.replicate_succ] at e
  · intro s hs; cases hs; rfl
  · intro s hs; cases hs; rfl

example : enterComment "#{\n  ".toList "/// a".toList [.other, .space, .comment, .space, .other] 2 =
    some "\n  /// $0".toList := by decide

/-- Meets the hypotheses: an equation of one line without content; and one with content. -/
example : Empty "$  $".toList ∧ ¬ Empty "$ x $".toList := by
  rw [empty_iff, empty_iff]; decide

example : enterMath "a ".toList "$$".toList 3 = some "\n    $0\n  ".toList := by decide

/-- **C46 fails.** A comment indented with a tab is continued after a single space: its line does not begin like the
line before. -/
theorem tab_becomes_space : enterComment "{\n\t".toList "/// a".toList [.comment] 0 = some "\n /// $0".toList := by decide

/-- **C46 fails.** Enter in front of the only text of a document, a comment or an empty equation, makes a second marker, or
splits off lines in front of the equation. -/
theorem in_front_of_all : enterComment [] "/// a".toList [.comment] 0 = some "\n/// $0".toList ∧
    enterMath [] "$$".toList 0 = some "\n  $0\n".toList := by decide

end Tinymist.OnEnter
