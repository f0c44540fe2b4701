import Verif.Lemmas.Docs
import Verif.Lemmas.Util

/-!
# C97: the documentation of parameters and of the result
-/

namespace Tinymist.Docs

open Pages (isWhitespace trim Space Blank)

theorem trimEnd_cons {c : Char} (h : isWhitespace c = false) (s : Text) : trimEnd (c :: s) = c :: trimEnd s := by
  have := trim_head (w := []) (s := s) (fun _ h => nomatch h) h
  rwa [List.nil_append, trim_def, trimStart_head h] at this

theorem trimEnd_append {c : Char} (h : isWhitespace c = false) (p s : Text) : trimEnd (p ++ c :: s) = p ++ c :: trimEnd s := by
  induction p with
  | nil => exact trimEnd_cons h s
  | cons x p ih =>
    obtain ⟨v, h1, h2⟩ := trimEnd_spec s
    have e : x :: p ++ c :: s = ((x :: p) ++ c :: trimEnd s) ++ v := by
      conv => lhs; rw [h1]
      simp
    rw [e, trimEnd_blank h2]
    apply trimEnd_eq
    intro y hy
    have hl : (c :: trimEnd s).getLast? = some y := by
      rw [List.getLast?_append] at hy
      cases hl : (c :: trimEnd s).getLast? with
      | none => simp at hl
      | some z => rw [hl] at hy; simpa using hy
    rw [← trimEnd_cons h s, trimEnd, List.getLast?_reverse] at hl
    have := List.head?_dropWhile_not isWhitespace (c :: s).reverse
    rw [hl] at this
    exact (ws_not _).mp (by simpa using this)

/-! ## One item -/

theorem beginItem_none {l : Text} (h : ¬ BeginsItem l) : beginItem l = none := by
  apply Option.eq_none_iff_forall_ne_some.mpr
  intro t hb
  apply h
  rw [beginItem] at hb
  obtain ⟨u, hs, hb⟩ := Option.bind_eq_some_iff.mp hb
  have h1 := stripPrefix_some hs
  have h2 := stripPrefix_some hb
  obtain ⟨w, hw, e⟩ := Pages.exists_dropWhile l
  obtain ⟨a, b, ha, _, e2⟩ := Pages.trim_spec u
  refine ⟨w, a, t ++ b, hw, ha, ?_⟩
  rw [show l.dropWhile isWhitespace = trimStart l from rfl, h1] at e
  rw [e]
  conv => lhs; rw [e2, h2]
  rw [show "<!-- typlite:begin:list-item 0 -->".toList = beginMark from rfl]
  generalize beginMark = m
  simp

/-- What is written after the mark that begins an item. -/
def headText (p : Documented) : Text := p.name ++ " (".toList ++ p.types ++ "): ".toList ++ p.first

theorem headText_eq (p : Documented) : headText p = p.name ++ ' ' :: '(' :: (p.types ++ ')' :: ':' :: ' ' :: p.first) := by
  have e1 : " (".toList = [' ', '('] := by decide
  have e2 : "): ".toList = [')', ':', ' '] := by decide
  rw [headText, e1, e2]; simp

theorem trimEnd_headText (p : Documented) :
    trimEnd (headText p) = p.name ++ ' ' :: '(' :: (p.types ++ ')' :: ':' :: trimEnd (' ' :: p.first)) := by
  have e : headText p = (p.name ++ ' ' :: '(' :: (p.types ++ [')'])) ++ ':' :: (' ' :: p.first) := by
    rw [headText_eq]; simp
  rw [e, trimEnd_append (by decide)]
  simp

theorem begin_head {p : Documented} (h : p.Ok) : beginItem (itemBegin ++ headText p) = some (trimEnd (headText p)) := by
  have e : itemBegin = '-' :: ' ' :: beginMark := by decide +kernel
  have hb : beginMark = '<' :: beginMark.tail := by decide +kernel
  rw [beginItem, e, List.cons_append, trimStart_head (by decide), List.cons_append]
  rw [show stripPrefix ['-', ' '] ('-' :: ' ' :: (beginMark ++ headText p)) = some (beginMark ++ headText p) from
    stripPrefix_append ['-', ' '] _, Option.bind_some]
  have ht : trim (beginMark ++ headText p) = beginMark ++ trimEnd (headText p) := by
    rw [trim_def]
    have h1 : trimStart (beginMark ++ headText p) = beginMark ++ headText p := by
      rw [hb, List.cons_append, trimStart_head (by decide)]
    rw [h1]
    cases hn : p.name with
    | nil => exact (h.1 hn).elim
    | cons c n =>
      have hc : isWhitespace c = false := (ws_not c).mpr (h.2.1 c (by rw [hn]; simp))
      rw [headText_eq, hn, List.cons_append, trimEnd_append hc, trimEnd_cons hc]
  rw [ht, stripPrefix_append]

theorem firstLine_head {p : Documented} (h : p.Ok) : firstLine (trimEnd (headText p)) = some (p.name, p.types, p.first) := by
  obtain ⟨h1, h2, h3, h4, _⟩ := h
  have ht : trim (trimEnd (headText p)) = trimEnd (headText p) := by
    have := trim_blank_end (w := []) (trimEnd (headText p)) (fun _ h => nomatch h)
    rw [trimEnd_headText]
    cases hn : p.name with
    | nil => exact (h1 hn).elim
    | cons c n =>
      have hc : isWhitespace c = false := (ws_not c).mpr (h2 c (by rw [hn]; simp))
      have := trimEnd_headText p
      rw [trim_def, List.cons_append, trimStart_head hc, ← List.cons_append, ← hn, ← this]
      obtain ⟨v, e1, e2⟩ := trimEnd_spec (headText p)
      have := trimEnd_blank e2 (trimEnd (headText p))
      rw [← e1] at this
      exact this.symm
  rw [firstLine, ht, trimEnd_headText, splitOnce_append, Option.bind_some]
  · simp only []
    rw [trimStart_head (by decide), show stripPrefix ['('] ('(' :: (p.types ++ ')' :: ':' :: trimEnd (' ' :: p.first))) =
      some (p.types ++ ')' :: ':' :: trimEnd (' ' :: p.first)) from stripPrefix_append ['('] _, Option.bind_some,
      matchBrace_close h3, Option.bind_some]
    simp only []
    rw [show splitOnce ':' (')' :: ':' :: trimEnd (' ' :: p.first)) = some ([')'], trimEnd (' ' :: p.first)) from
      splitOnce_append (a := [')']) (by decide) _, Option.map_some]
    obtain ⟨v, e1, e2⟩ := trimEnd_spec (' ' :: p.first)
    have e3 : trim (trimEnd (' ' :: p.first)) = p.first := by
      rw [← trim_blank_end _ e2, ← e1]
      have := trim_trimmed (w := [' ']) (w' := []) (s := p.first) (by intro c hc; simp at hc; subst hc; exact (ws_iff _).mp (by decide))
        (fun _ h => nomatch h) h4
      simpa using this
    simp [e3]
  · intro hm
    exact h2 _ hm ((ws_iff _).mp (by decide))

theorem gather_item {L t : Text} (hL : beginItem L = some t) (ms : List Text) (above : List Text) (hm : ∀ m ∈ ms, beginItem m = none) :
    ∃ last init, L :: ms = init ++ [last] ∧ gather last (init.reverse ++ above) = some (t :: ms, above) := by
  induction ms using Util.reverseInd with
  | nil =>
    refine ⟨L, [], rfl, ?_⟩
    cases above with
    | nil => simp [gather, hL]
    | cons a above => simp [gather, hL]
  | append_singleton ms m ih =>
    obtain ⟨last, init, e, h⟩ := ih fun x hx => hm x (by simp [hx])
    refine ⟨m, L :: ms, rfl, ?_⟩
    rw [e, List.reverse_append]
    simp [gather, hm m (by simp), h]

theorem closed_eq (L : Text) (ms : List Text) : ∀ init last, L :: ms = init ++ [last] → closed L ms = init ++ [last ++ itemEnd] := by
  induction ms generalizing L with
  | nil =>
    intro init last e
    cases init with
    | nil => cases e; rfl
    | cons x init => simp at e
  | cons m ms ih =>
    intro init last e
    cases init with
    | nil => simp at e
    | cons x init =>
      simp only [List.cons_append, List.cons.injEq] at e
      obtain ⟨rfl, e⟩ := e
      rw [closed, ih m init last e]; rfl

theorem closed_length (L : Text) (ms : List Text) : (closed L ms).length = ms.length + 1 := by
  induction ms generalizing L with
  | nil => rfl
  | cons m ms ih => simp [closed, ih]

theorem strip_end (l : Text) : stripSuffix endMark (trimEnd (l ++ itemEnd)) = some l := by
  have e : itemEnd = itemEnd.dropLast ++ ['>'] := by decide +kernel
  have : trimEnd (l ++ itemEnd) = l ++ itemEnd := by
    rw [e, ← List.append_assoc, trimEnd_last (by decide)]
  rw [this]
  exact stripSuffix_append _ _

theorem not_return {l : Text} (h : ¬ LikeReturn l) : stripPrefix ['-', '>'] (trimStart l) = none := by
  cases hs : stripPrefix ['-', '>'] (trimStart l) with
  | none => rfl
  | some r =>
    obtain ⟨w, hw, e⟩ := Pages.exists_dropWhile l
    have := stripPrefix_some hs
    exact (h ⟨w, r, hw, by rw [show l.dropWhile isWhitespace = trimStart l from rfl, this] at e; exact e⟩).elim

theorem search_gap (n : Nat) : ∀ (fuel : Nat) (b : Bool) (bl : Option Nat) (ret : Option Text) (ps : List Param) (above : List Text),
    n + above.length ≤ fuel → ∃ f, above.length ≤ f ∧
      search fuel b bl ret ps (List.replicate n [] ++ above) = search f b bl ret ps above := by
  induction n with
  | zero => intro fuel b bl ret ps above h; exact ⟨fuel, by omega, by simp⟩
  | succ n ih =>
    intro fuel b bl ret ps above h
    cases fuel with
    | zero => omega
    | succ fuel =>
      obtain ⟨f, h1, h2⟩ := ih fuel b bl ret ps above (by omega)
      refine ⟨f, h1, ?_⟩
      rw [List.replicate_succ, List.cons_append, search]
      simpa using h2

/-- What is read from a documented parameter. -/
def param (p : Documented) : Param := ⟨p.name, p.types, p.first :: p.more⟩

theorem lines_eq (p : Documented) : p.lines = closed (itemBegin ++ headText p) p.more ++ List.replicate p.gap [] := by
  simp [Documented.lines, headText]

theorem search_item {p : Documented} (h : p.Ok) (fuel : Nat) (b : Bool) (bl : Option Nat) (ret : Option Text) (ps : List Param)
    (above : List Text) (hf : p.lines.length + above.length ≤ fuel) (hb : b = true → ∀ l, LastFull p.lines l → ¬ LikeReturn l) :
    ∃ f, above.length ≤ f ∧ search fuel b bl ret ps (p.lines.reverse ++ above) = search f false bl ret (param p :: ps) above := by
  obtain ⟨last, init, e, hg⟩ := gather_item (begin_head h) p.more above fun m hm => beginItem_none (h.2.2.2.2 m hm)
  have hc := closed_eq _ _ _ _ e
  have hlen : (closed (itemBegin ++ headText p) p.more).length = init.length + 1 := by rw [hc]; simp
  have hne : last ++ itemEnd ≠ [] := by
    have e : itemEnd = '<' :: itemEnd.tail := by decide +kernel
    rw [e]; simp
  rw [lines_eq, List.length_append, List.length_replicate] at hf
  have hrev : p.lines.reverse ++ above = List.replicate p.gap [] ++ ((last ++ itemEnd) :: (init.reverse ++ above)) := by
    rw [lines_eq, hc]; simp
  obtain ⟨f, hf1, hf2⟩ := search_gap p.gap fuel b bl ret ps ((last ++ itemEnd) :: (init.reverse ++ above)) (by
    simp only [List.length_cons, List.length_append, List.length_reverse]; omega)
  simp only [List.length_cons, List.length_append, List.length_reverse] at hf1
  cases f with
  | zero => omega
  | succ f =>
    refine ⟨f, by omega, ?_⟩
    have hr : (if b = true then stripPrefix ['-', '>'] (trimStart (last ++ itemEnd)) else none) = none := by
      split
      · rename_i hbt
        exact not_return (hb hbt _ ⟨init, p.gap, by rw [lines_eq, hc], hne⟩)
      · rfl
    have he : (last ++ itemEnd).isEmpty = false := by simpa using hne
    rw [hrev, hf2, search]
    simp only [he, hr, strip_end, hg, firstLine_head h, Bool.false_eq_true, if_false]
    rfl

theorem search_items (items : List Documented) (h : ∀ p ∈ items, p.Ok) : ∀ (fuel : Nat) (bl : Option Nat) (ret : Option Text)
    (ps : List Param) (above : List Text), (items.flatMap Documented.lines).length + above.length ≤ fuel →
    ∃ f, above.length ≤ f ∧ search fuel false bl ret ps ((items.flatMap Documented.lines).reverse ++ above) =
      search f false bl ret (items.map param ++ ps) above := by
  induction items using Util.reverseInd with
  | nil => intro fuel bl ret ps above hf; exact ⟨fuel, by simpa using hf, by simp⟩
  | append_singleton items p ih =>
    intro fuel bl ret ps above hf
    have e : ((items ++ [p]).flatMap Documented.lines).reverse ++ above =
        p.lines.reverse ++ ((items.flatMap Documented.lines).reverse ++ above) := by simp
    rw [List.flatMap_append, List.length_append] at hf
    simp only [List.flatMap_cons, List.flatMap_nil, List.append_nil] at hf
    obtain ⟨f, h1, h2⟩ := search_item (h p (by simp)) fuel false bl ret ps ((items.flatMap Documented.lines).reverse ++ above)
      (by simp only [List.length_append, List.length_reverse]; omega) (by simp)
    obtain ⟨f', h3, h4⟩ := ih (fun q hq => h q (by simp [hq])) f bl ret (param p :: ps) above (by
      simpa only [List.length_append, List.length_reverse] using h1)
    exact ⟨f', h3, by rw [e, h2, h4]; simp⟩

theorem search_items' (items : List Documented) (h : ∀ p ∈ items, p.Ok) (hne : items ≠ []) (fuel : Nat) (bl : Option Nat)
    (ret : Option Text) (above : List Text) (hf : (items.flatMap Documented.lines).length + above.length ≤ fuel) (pre : List Text)
    (hb : ∀ l, LastFull (pre ++ items.flatMap Documented.lines) l → ¬ LikeReturn l) :
    ∃ f, above.length ≤ f ∧ search fuel true bl ret [] ((items.flatMap Documented.lines).reverse ++ above) =
      search f false bl ret (items.map param) above := by
  rcases List.eq_nil_or_concat items with rfl | ⟨items, p, rfl⟩
  · exact (hne rfl).elim
  rw [List.concat_eq_append] at *
  have e : ((items ++ [p]).flatMap Documented.lines).reverse ++ above =
      p.lines.reverse ++ ((items.flatMap Documented.lines).reverse ++ above) := by simp
  rw [List.flatMap_append, List.length_append] at hf
  simp only [List.flatMap_cons, List.flatMap_nil, List.append_nil] at hf
  obtain ⟨f, h1, h2⟩ := search_item (h p (by simp)) fuel true bl ret [] ((items.flatMap Documented.lines).reverse ++ above)
    (by simp only [List.length_append, List.length_reverse]; omega) (by
      rintro - l ⟨a, n, e, hl⟩
      exact hb l ⟨pre ++ items.flatMap Documented.lines ++ a, n, by simp [e], hl⟩)
  obtain ⟨f', h3, h4⟩ := search_items items (fun q hq => h q (by simp [hq])) f bl ret [param p] above (by
    simpa only [List.length_append, List.length_reverse] using h1)
  exact ⟨f', h3, by rw [e, h2, h4]; simp⟩

/-! ## The whole -/

theorem gather_none (l : Text) (above : List Text) (h : ∀ x ∈ l :: above, beginItem x = none) : gather l above = none := by
  induction above generalizing l with
  | nil => simp [gather, h l (by simp)]
  | cons p above ih => simp [gather, h l (by simp), ih p fun x hx => h x (by simp_all)]

theorem begin_plain {t : Text} (h : '(' ∉ t) : ∃ u, beginItem (itemBegin ++ t) = some u ∧ '(' ∉ u := by
  have e : itemBegin = '-' :: ' ' :: beginMark := by decide +kernel
  have hb : beginMark = '<' :: beginMark.tail := by decide +kernel
  have hl : beginMark = beginMark.dropLast ++ ['>'] := by decide +kernel
  refine ⟨trimEnd t, ?_, ?_⟩
  · rw [beginItem, e, List.cons_append, trimStart_head (by decide), List.cons_append]
    rw [show stripPrefix ['-', ' '] ('-' :: ' ' :: (beginMark ++ t)) = some (beginMark ++ t) from
      stripPrefix_append ['-', ' '] _, Option.bind_some]
    have ht : trim (beginMark ++ t) = beginMark ++ trimEnd t := by
      rw [trim_def]
      have h1 : trimStart (beginMark ++ t) = beginMark ++ t := by
        rw [hb, List.cons_append, trimStart_head (by decide)]
      rw [h1, hl, List.append_assoc, List.singleton_append, trimEnd_append (by decide)]
      simp
    rw [ht, stripPrefix_append]
  · intro hm
    obtain ⟨v, e1, -⟩ := trimEnd_spec t
    exact h (by rw [e1]; exact List.mem_append_left _ hm)

theorem splitOnce_mem {x : Char} {s a b : Text} (h : splitOnce x s = some (a, b)) : ∀ c ∈ b, c ∈ s := by
  induction s generalizing a b with
  | nil => cases h
  | cons y s ih =>
    rw [splitOnce] at h
    split at h
    · cases h; intro c hc; exact List.mem_cons_of_mem _ hc
    · obtain ⟨⟨a', b'⟩, h1, h2⟩ := Option.map_eq_some_iff.mp h
      cases h2
      intro c hc
      exact List.mem_cons_of_mem _ (ih h1 c hc)

theorem firstLine_plain {u : Text} (h : '(' ∉ u) : firstLine u = none := by
  cases hf : firstLine u with
  | none => rfl
  | some r =>
    exfalso
    rw [firstLine] at hf
    obtain ⟨⟨name, rest⟩, h1, hf⟩ := Option.bind_eq_some_iff.mp hf
    obtain ⟨rest', h2, -⟩ := Option.bind_eq_some_iff.mp hf
    have h3 := stripPrefix_some h2
    have hm : '(' ∈ rest := by
      have : '(' ∈ trimStart rest := by rw [h3]; simp
      exact (List.dropWhile_sublist _).subset this
    have hm := splitOnce_mem h1 _ hm
    obtain ⟨a, b, -, -, e⟩ := Pages.trim_spec u
    exact h (by rw [e]; simp [hm])

theorem begins_append {l : Text} (h : BeginsItem l) (s : Text) : BeginsItem (l ++ s) := by
  obtain ⟨w, w', r, h1, h2, rfl⟩ := h
  exact ⟨w, w', r ++ s, h1, h2, by simp⟩

theorem search_desc {d : List Text} {l : Text} {n : Nat} (hl : l ≠ []) (he : EndsPlain (d ++ [l])) (fuel : Nat) (b : Bool)
    (hb : b = true → ¬ LikeReturn l) (bl : Option Nat) (ret : Option Text) (ps : List Param)
    (hf : (d ++ [l] ++ List.replicate n []).length ≤ fuel) :
    search fuel b bl ret ps (d ++ [l] ++ List.replicate n []).reverse = (some (d.length + 1), ret, ps) := by
  have e : (d ++ [l] ++ List.replicate n []).reverse = List.replicate n [] ++ (l :: d.reverse) := by simp
  simp only [List.length_append, List.length_cons, List.length_nil, List.length_replicate] at hf
  obtain ⟨f, h1, h2⟩ := search_gap n fuel b bl ret ps (l :: d.reverse) (by
    simp only [List.length_cons, List.length_reverse]; omega)
  simp only [List.length_cons, List.length_reverse] at h1
  cases f with
  | zero => omega
  | succ f =>
    have hr : (if b = true then stripPrefix ['-', '>'] (trimStart l) else none) = none := by
      split
      · rename_i hbt; exact not_return (hb hbt)
      · rfl
    have hem : l.isEmpty = false := by simpa using hl
    rw [e, h2, search]
    cases hs : stripSuffix endMark (trimEnd l) with
    | none => simp [hem, hr, hs]
    | some r =>
      obtain ⟨w, e1, e2⟩ := trimEnd_spec l
      have e3 : l = r ++ itemEnd ++ w := by
        conv => lhs; rw [e1, stripSuffix_some hs]
        rfl
      rcases he with he | he | ⟨above, text, more, he, ht, hm⟩
      · exact (he l (by simp) ⟨r, w, e2, e3⟩).elim
      · have hg : gather r d.reverse = none := by
          apply gather_none
          intro x hx
          apply beginItem_none
          rcases List.mem_cons.mp hx with rfl | hx
          · intro hbi
            refine he l (by simp) ?_
            rw [e3, List.append_assoc]
            exact begins_append hbi _
          · exact he x (by simp at hx; simp [hx])
        simp [hem, hr, hg]
      · obtain ⟨u, hu, hu'⟩ := begin_plain ht
        obtain ⟨last, init, ei, hg⟩ := gather_item hu more above.reverse fun m hm' => beginItem_none (hm m hm')
        have hc := closed_eq _ _ _ _ ei
        rw [hc, ← List.append_assoc] at he
        obtain ⟨h3, h4⟩ := List.append_inj' he rfl
        obtain rfl : l = last ++ itemEnd := by simpa using h4
        have : r = last := by
          rw [strip_end] at hs
          exact (Option.some.inj hs).symm
        subst this h3
        rw [List.reverse_append]
        simp only [hem, hr, strip_end, hg, firstLine_plain hu', Bool.false_eq_true, if_false]
        simp only [List.length_append, List.length_reverse]
        rw [Nat.add_comm init.length]

theorem search_return {ty : Text} (ht : Trimmed ty) (n fuel : Nat) (above : List Text) (hf : n + 1 + above.length ≤ fuel) :
    ∃ f, above.length ≤ f ∧ search fuel true none none [] ((returnLines (some (ty, n))).reverse ++ above) =
      search f false (some above.length) (some ty) [] above := by
  have e : (returnLines (some (ty, n))).reverse ++ above = List.replicate n [] ++ (("-> ".toList ++ ty) :: above) := by
    simp [returnLines]
  obtain ⟨f, h1, h2⟩ := search_gap n fuel true none none [] (("-> ".toList ++ ty) :: above) (by
    simp only [List.length_cons]; omega)
  simp only [List.length_cons] at h1
  cases f with
  | zero => omega
  | succ f =>
    refine ⟨f, by omega, ?_⟩
    have e1 : "-> ".toList ++ ty = '-' :: '>' :: ' ' :: ty := rfl
    have e2 : stripPrefix ['-', '>'] (trimStart ('-' :: '>' :: ' ' :: ty)) = some (' ' :: ty) := by
      rw [trimStart_head (by decide)]; rfl
    have e3 : trim (' ' :: ty) = ty := by
      have := trim_trimmed (w := [' ']) (w' := []) (s := ty) (by intro c hc; simp at hc; subst hc; exact (ws_iff _).mp (by decide))
        (fun _ h => nomatch h) ht
      simpa using this
    rw [e, h2, e1, search]
    simp [e2, e3]

theorem take_desc (d : List Text) (l : Text) (rest : List Text) : (d ++ [l] ++ rest).take (d.length + 1) = d ++ [l] := by
  have : (d ++ [l]).length = d.length + 1 := by simp
  rw [← this]; exact List.take_left

/-- **C97.** A description, parameters and the type of the result, written one after the other, are read as they were
written: the description without the empty lines at its end, the parameters in order, each with its name, its types and
its lines, and the type. The description may itself end in a list, as long as its last item does not look like a
parameter. Missing: documentation without a description, see `no_description`. -/
theorem parameters_read_partial {d : List Text} {l : Text} {n : Nat} {items : List Documented} {ret : Option (Text × Nat)}
    (hl : l ≠ []) (he : EndsPlain (d ++ [l])) (hi : ∀ p ∈ items, p.Ok) (hr : ∀ r ∈ ret, Trimmed r.1)
    (hn : ret = none → ∀ x, LastFull (d ++ [l] ++ List.replicate n [] ++ items.flatMap Documented.lines) x → ¬ LikeReturn x) :
    identify (d ++ [l] ++ List.replicate n [] ++ items.flatMap Documented.lines ++ returnLines ret) =
      ⟨some (d ++ [l]), ret.map (·.1), items.map fun p => ⟨p.name, p.types, p.first :: p.more⟩⟩ := by
  have hlast : ret = none → items = [] → ¬ LikeReturn l := by
    rintro h1 rfl
    exact hn h1 l ⟨d, n, by simp, hl⟩
  have key : search (d ++ [l] ++ List.replicate n [] ++ items.flatMap Documented.lines ++ returnLines ret).length true none none []
      (d ++ [l] ++ List.replicate n [] ++ items.flatMap Documented.lines ++ returnLines ret).reverse =
        (some (d.length + 1), ret.map (·.1), items.map param) := by
    cases ret with
    | some r =>
      obtain ⟨ty, g⟩ := r
      rw [List.reverse_append]
      obtain ⟨f, h1, h2⟩ := search_return (ty := ty) (hr _ rfl) g
        (d ++ [l] ++ List.replicate n [] ++ items.flatMap Documented.lines ++ returnLines (some (ty, g))).length
        (d ++ [l] ++ List.replicate n [] ++ items.flatMap Documented.lines).reverse (by
          simp only [List.length_append, List.length_reverse, returnLines, List.length_cons, List.length_replicate]; omega)
      rw [h2, List.reverse_append]
      rw [List.length_reverse, List.length_append] at h1
      obtain ⟨f', h3, h4⟩ := search_items items hi f
        (some ((items.flatMap Documented.lines).reverse ++ (d ++ [l] ++ List.replicate n []).reverse).length) (some ty) []
        (d ++ [l] ++ List.replicate n []).reverse (by rw [List.length_reverse]; omega)
      rw [h4, search_desc hl he f' false (by simp) _ _ _ (by simpa only [List.length_reverse] using h3)]
      simp
    | none =>
      simp only [returnLines, List.append_nil]
      by_cases hni : items = []
      · subst hni
        simp only [List.flatMap_nil, List.append_nil]
        rw [search_desc hl he _ true (fun _ => hlast rfl rfl) _ _ _ (Nat.le_refl _)]
        rfl
      · rw [List.reverse_append]
        obtain ⟨f', h3, h4⟩ := search_items' items hi hni
          (d ++ [l] ++ List.replicate n [] ++ items.flatMap Documented.lines).length none none
          (d ++ [l] ++ List.replicate n []).reverse (by rw [List.length_reverse, List.length_append (as := d ++ [l] ++ List.replicate n [])]; omega)
          (d ++ [l] ++ List.replicate n []) (hn rfl)
        rw [h4, search_desc hl he f' false (by simp) _ _ _ (by simpa only [List.length_reverse] using h3)]
        simp
  rw [identify, key]
  simp only [Option.map_some]
  rw [List.append_assoc, List.append_assoc, take_desc]
  rfl

/-- **C97, violated.** Without a description, the parameters are in the documentation that is shown beside them: it is the
whole text. -/
theorem no_description {items : List Documented} (hi : ∀ p ∈ items, p.Ok) (hn : ∀ x, LastFull (items.flatMap Documented.lines) x → ¬ LikeReturn x) :
    identify (items.flatMap Documented.lines) = ⟨none, none, items.map fun p => ⟨p.name, p.types, p.first :: p.more⟩⟩ := by
  by_cases hni : items = []
  · subst hni; rfl
  · obtain ⟨f, h3, h4⟩ := search_items' items hi hni (items.flatMap Documented.lines).length none none [] (by simp) [] (by simpa using hn)
    rw [List.append_nil] at h4
    rw [identify, h4, search]
    rfl

/-- A parameter with a default description, and one of two lines with types with braces. -/
def sample : List Documented :=
  [⟨['a'], ['i', 'n', 't'], ['A'], [], 0⟩, ⟨['b'], ['f', '(', 'x', ')'], ['B'], [[' ', 'b']], 1⟩]

theorem sample_ok : ∀ p ∈ sample, p.Ok := by
  intro p hp
  simp [sample] at hp
  have hb : Balanced ['f', '(', 'x', ')'] :=
    .char _ _ (by decide) (by decide) (.brace ['x'] [] (.char _ _ (by decide) (by decide) .nil) .nil)
  have hi : Balanced ['i', 'n', 't'] :=
    .char _ _ (by decide) (by decide) (.char _ _ (by decide) (by decide) (.char _ _ (by decide) (by decide) .nil))
  rcases hp with rfl | rfl
  · refine ⟨by simp, ?_, hi, ⟨?_, ?_⟩, by simp⟩ <;>
    · intro c hc
      simp at hc
      subst hc
      exact (ws_not _).mp (by decide)
  · refine ⟨by simp, ?_, hb, ⟨?_, ?_⟩, ?_⟩
    · intro c hc
      simp at hc
      subst hc
      exact (ws_not _).mp (by decide)
    · intro c hc
      simp at hc
      subst hc
      exact (ws_not _).mp (by decide)
    · intro c hc
      simp at hc
      subst hc
      exact (ws_not _).mp (by decide)
    · intro l hl
      simp at hl
      subst hl
      rintro ⟨w, w', r, _, _, e⟩
      have := congrArg (fun s => decide ('-' ∈ s)) e
      simp at this

/-- A description that ends in a list. -/
example : EndsPlain ([['D']] ++ [itemBegin ++ ['x'] ++ itemEnd]) :=
  .inr (.inr ⟨[['D']], ['x'], [], rfl, by decide, by simp⟩)

/-- The hypotheses of `parameters_read_partial` hold for a function with two parameters and a result. -/
example : (['D'] : Text) ≠ [] ∧ ¬ LikeEnd ['D'] ∧ (∀ p ∈ sample, p.Ok) ∧ Trimmed ['i', 'n', 't'] ∧
    identify ([['D'], []] ++ sample.flatMap Documented.lines ++ returnLines (some (['i', 'n', 't'], 1))) =
      ⟨some [['D']], some ['i', 'n', 't'],
        [⟨['a'], ['i', 'n', 't'], [['A']]⟩, ⟨['b'], ['f', '(', 'x', ')'], [['B'], [' ', 'b']]⟩]⟩ := by
  refine ⟨by simp, ?_, sample_ok, ?_, by decide +kernel⟩
  · rintro ⟨r, w, _, e⟩
    have h1 := congrArg List.length e
    have h2 : itemEnd.length = 32 := by decide +kernel
    simp only [List.length_append, h2, List.length_cons, List.length_nil] at h1
    omega
  · constructor <;>
    · intro c hc
      simp at hc
      subst hc
      exact (ws_not _).mp (by decide)

/-- **C97, violated.** A description with nothing but an arrow at the beginning of its last line is the type of the result. -/
theorem arrow_taken : identify ["See a".toList, "-> b for more".toList] = ⟨some ["See a".toList], some "b for more".toList, []⟩ := by
  decide +kernel

/-! # C98: documentation that could not be converted -/

theorem run_mono (s : Text) : ∀ m c : Nat, m ≤ (s.foldl (fun (acc : Nat × Nat) x => if x = '`' then (max acc.1 (acc.2 + 1), acc.2 + 1)
    else (acc.1, 0)) (m, c)).1 := by
  induction s with
  | nil => intro m c; exact Nat.le_refl _
  | cons x s ih =>
    intro m c
    rw [List.foldl_cons]
    split
    · exact Nat.le_trans (Nat.le_max_left _ _) (ih _ _)
    · exact ih _ _

theorem run_ticks (k : Nat) (s : Text) : ∀ m c : Nat, 0 < k → c + k ≤ ((List.replicate k '`' ++ s).foldl (fun (acc : Nat × Nat) x =>
    if x = '`' then (max acc.1 (acc.2 + 1), acc.2 + 1) else (acc.1, 0)) (m, c)).1 := by
  induction k with
  | zero => intro m c h; omega
  | succ k ih =>
    intro m c _
    rw [List.replicate_succ, List.cons_append, List.foldl_cons]
    simp only [if_true]
    by_cases hk : k = 0
    · subst hk
      have := run_mono s (max m (c + 1)) (c + 1)
      simp only [List.replicate_zero, List.nil_append]
      omega
    · have := ih (max m (c + 1)) (c + 1) (by omega)
      omega

theorem run_le {docs a b : Text} {k : Nat} (h : docs = a ++ (List.replicate k '`' ++ b)) : k ≤ longestRun docs := by
  by_cases hk : k = 0
  · omega
  · rw [longestRun, h, List.foldl_append]
    have := run_ticks k b (a.foldl (fun (acc : Nat × Nat) x => if x = '`' then (max acc.1 (acc.2 + 1), acc.2 + 1)
      else (acc.1, 0)) (0, 0)).1 (a.foldl (fun (acc : Nat × Nat) x => if x = '`' then (max acc.1 (acc.2 + 1), acc.2 + 1)
      else (acc.1, 0)) (0, 0)).2 (by omega)
    exact Nat.le_trans (Nat.le_add_left _ _) this

theorem escape_ne (s r : Text) : escape s ≠ '`' :: r := by
  cases s with
  | nil => simp [escape]
  | cons c s =>
    rw [escape]
    split
    · simp
    · rename_i hc
      intro h
      exact hc (List.cons.inj h).1

theorem escape_apart (s : Text) : ∀ a b, escape s ≠ a ++ '`' :: '`' :: b := by
  induction s with
  | nil => intro a b; simp [escape]
  | cons c s ih =>
    intro a b h
    rw [escape] at h
    split at h
    · cases a with
      | nil => simp at h
      | cons x a =>
        simp only [List.cons_append, List.cons.injEq] at h
        cases a with
        | nil =>
          simp only [List.nil_append, List.cons.injEq] at h
          exact escape_ne _ _ h.2.2
        | cons y a =>
          simp only [List.cons_append, List.cons.injEq] at h
          exact ih a b h.2.2
    · rename_i hc
      cases a with
      | nil => exact hc (List.cons.inj h).1
      | cons x a => exact ih a b (List.cons.inj h).2

/-- **C98.** Documentation that could not be converted is shown in full, as code between two fences of backticks, below the
reason. The fence is longer than any run of backticks in the documentation, and the reason holds no two backticks in
a row, so that neither can end the block it is in. -/
theorem shown_as_code (err docs : Text) : ∃ reason n, 3 ≤ n ∧
    fallback err docs = "```\nfailed to parse docs: ".toList ++ reason ++ "\n```\n\n".toList ++ List.replicate n '`' ++
      "typ\n".toList ++ docs ++ ['\n'] ++ List.replicate n '`' ++ ['\n'] ∧
    (∀ a b k, docs = a ++ (List.replicate k '`' ++ b) → k < n) ∧
    (∀ a b, reason ≠ a ++ '`' :: '`' :: b) ∧
    ('`' ∉ err → reason = err) := by
  refine ⟨escape err, max (longestRun docs + 1) 3, by omega, rfl, ?_, escape_apart err, ?_⟩
  · intro a b k h
    have := run_le h
    omega
  · intro h
    induction err with
    | nil => rfl
    | cons c s ih =>
      simp at h
      rw [escape, if_neg (fun e => h.1 e.symm), ih h.2]

/-- Documentation with four backticks gets five. -/
example : fence "a ```` b".toList = "`````".toList := by decide +kernel

end Tinymist.Docs
