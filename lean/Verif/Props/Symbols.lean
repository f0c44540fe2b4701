import Verif.Lemmas.Symbols
import Verif.Props.Sections

/-!
# C93: searching the symbols and labels of the workspace
-/

namespace Tinymist.Symbols

open Sections (Info Node Tree Kind infos hierarchy isSymbol preorder preorder1)

theorem contains_iff (w text : List Char) : contains w text = true ↔ Part w text := by
  induction text with
  | nil =>
    simp only [contains, List.isEmpty_iff, Part]
    constructor
    · rintro rfl; exact ⟨[], [], rfl⟩
    · rintro ⟨a, b, h⟩
      have := congrArg List.length h
      simp at this
      exact List.eq_nil_of_length_eq_zero (by omega)
  | cons c t ih =>
    simp only [contains, Bool.or_eq_true, ih, List.isPrefixOf_iff_prefix]
    constructor
    · rintro (⟨s, h⟩ | ⟨a, b, rfl⟩)
      · exact ⟨[], s, by simpa using h.symm⟩
      · exact ⟨c :: a, b, rfl⟩
    · rintro ⟨a, b, h⟩
      cases a with
      | nil => exact .inl ⟨b, by simpa using h.symm⟩
      | cons x a =>
        right
        simp only [List.cons_append, List.cons.injEq] at h
        exact ⟨a, b, h.2⟩

theorem isSymbol_iff (i : Info) : isSymbol i.kind = true ↔ IsSymbol i := by
  unfold IsSymbol
  cases i.kind <;> simp [isSymbol]

theorem filterSymbols_eq {q : Option (List Char)} {l r : List Info} (h : filterSymbols q l = some r) :
    r = l.filter (matchesQuery q) ∧ ∀ i ∈ r, isSymbol i.kind = true := by
  induction l generalizing r with
  | nil => simp [filterSymbols] at h; subst h; simp
  | cons i l ih =>
    rw [filterSymbols] at h
    split at h
    · rename_i hm
      rw [List.filter_cons_of_neg (by simpa using hm)]
      exact ih h
    · rename_i hm
      split at h
      · cases h
      · rename_i hs
        simp only [Option.map_eq_some_iff] at h
        obtain ⟨r', h1, rfl⟩ := h
        rw [List.filter_cons_of_pos (by simpa using hm), (ih h1).1]
        refine ⟨rfl, ?_⟩
        intro j hj
        rcases List.mem_cons.mp hj with rfl | hj
        · simpa using hs
        · rw [← (ih h1).1] at hj; exact (ih h1).2 j hj

theorem filterSymbols_some {q : Option (List Char)} {l : List Info}
    (h : ∀ i ∈ l, matchesQuery q i = true → isSymbol i.kind = true) : filterSymbols q l = some (l.filter (matchesQuery q)) := by
  induction l with
  | nil => rfl
  | cons i l ih =>
    have ih := ih fun j hj => h j (List.mem_cons_of_mem _ hj)
    rw [filterSymbols]
    split
    · rename_i hm
      rw [List.filter_cons_of_neg (by simpa using hm), ih]
    · rename_i hm
      have hm : matchesQuery q i = true := by simpa using hm
      rw [if_neg (by simp [h i (List.mem_cons_self ..) hm]), ih, List.filter_cons_of_pos hm]
      rfl

theorem roots_sub (ts : List Tree) : (ts.map root).Sublist (preorder ts) := by
  induction ts with
  | nil => simp
  | cons t ts ih =>
    cases t with
    | node i cs =>
      rw [preorder, preorder1, List.map_cons]
      exact (ih.trans (List.sublist_append_right _ _)).cons_cons i

theorem lookedAt_sub (ts : List Tree) : (lookedAt ts).Sublist (preorder ts) := by
  induction ts with
  | nil => simp [lookedAt]
  | cons t ts ih =>
    cases t with
    | node i cs =>
      rw [lookedAt, preorder, preorder1]
      exact ((roots_sub cs).append ih).cons_cons i

theorem lookedAt_shallow {ts : List Tree} (h : Shallow ts) : lookedAt ts = preorder ts := by
  induction ts with
  | nil => simp [lookedAt, preorder]
  | cons t ts ih =>
    have hr := ih fun x hx => h x (List.mem_cons_of_mem _ hx)
    have h1 := h t (List.mem_cons_self ..)
    cases t with
    | node i cs =>
      rw [lookedAt, preorder, preorder1, hr, List.cons_append]
      congr 2
      simp only at h1
      clear hr ih h
      induction cs with
      | nil => simp [preorder]
      | cons c cs ih =>
        have h2 := h1 c (List.mem_cons_self ..)
        rw [List.map_cons, ih fun x hx => h1 x (List.mem_cons_of_mem _ hx), preorder]
        cases c with
        | node j g => simp only at h2; subst h2; simp [preorder1, root, preorder]

variable {U : Type}

theorem matches_iff (text : List Char) (i : Info) :
    matchesQuery (if text.isEmpty then none else some text) i = true ↔ Part text i.name := by
  by_cases h : text = []
  · subst h
    simp [matchesQuery, Part]
    exact ⟨[], i.name, rfl⟩
  · simp [matchesQuery, h, contains_iff]

/-- The answer, file by file. -/
theorem request_mem {q : Option (List Char)} {fs : List (File U)} {r : List (U × Info)} (h : request q fs = some r)
    (u : U) (i : Info) : (u, i) ∈ r ↔ ∃ f ∈ fs, ∃ doc, f.source = some doc ∧ f.uri = some u ∧
      i ∈ (lookedAt (hierarchy doc)).filter (matchesQuery q) ∧ isSymbol i.kind = true := by
  induction fs generalizing r with
  | nil => simp [request] at h; subst h; simp
  | cons f fs ih =>
    rw [request] at h
    cases hs : f.source with
    | none =>
      simp only [hs] at h
      rw [ih h]
      constructor
      · rintro ⟨g, hg, x⟩; exact ⟨g, List.mem_cons_of_mem _ hg, x⟩
      · rintro ⟨g, hg, doc, h1, x⟩
        rcases List.mem_cons.mp hg with rfl | hg
        · rw [hs] at h1; cases h1
        · exact ⟨g, hg, doc, h1, x⟩
    | some doc =>
      simp only [hs] at h
      cases hu : f.uri with
      | none => simp only [hu] at h; cases h
      | some v =>
        simp only [hu] at h
        cases hl : filterSymbols q (lookedAt (hierarchy doc)) with
        | none => simp only [hl] at h; cases h
        | some l =>
          cases hr : request q fs with
          | none => simp only [hl, hr] at h; cases h
          | some r' =>
            simp only [hl, hr, Option.some.injEq] at h
            subst h
            obtain ⟨e, hsym⟩ := filterSymbols_eq hl
            rw [List.mem_append, ih hr]
            constructor
            · rintro (hm | ⟨g, hg, x⟩)
              · obtain ⟨j, hj, e'⟩ := List.mem_map.mp hm
                cases e'
                exact ⟨f, List.mem_cons_self .., doc, hs, hu, e ▸ hj, hsym _ hj⟩
              · exact ⟨g, List.mem_cons_of_mem _ hg, x⟩
            · rintro ⟨g, hg, doc', h1, h2, h3, h4⟩
              rcases List.mem_cons.mp hg with rfl | hg
              · rw [hs] at h1; cases h1
                rw [hu] at h2; cases h2
                exact .inl (List.mem_map.mpr ⟨i, e ▸ h3, rfl⟩)
              · exact .inr ⟨g, hg, doc', h1, h2, h3, h4⟩

/-- **C93.** Whatever is found is a symbol of a file of the compilation, under the address of this file, and its name
contains the text searched for. -/
theorem found_are_symbols {text : List Char} {fs : List (File U)} {r : List (U × Info)} (h : search text fs = some r)
    {u : U} {i : Info} (hi : (u, i) ∈ r) :
    IsSymbol i ∧ Part text i.name ∧ ∃ f ∈ fs, f.uri = some u ∧ ∃ doc, f.source = some doc ∧ i ∈ infos doc := by
  obtain ⟨f, hf, doc, h1, h2, h3, h4⟩ := (request_mem h u i).mp hi
  rw [List.mem_filter] at h3
  refine ⟨(isSymbol_iff i).mp h4, (matches_iff text i).mp h3.2, f, hf, h2, doc, h1, ?_⟩
  rw [← Sections.hierarchy_complete]
  exact (lookedAt_sub _).subset h3.1

theorem request_some {q : Option (List Char)} {fs : List (File U)}
    (h : ∀ f ∈ fs, ∀ doc, f.source = some doc → (∃ u, f.uri = some u) ∧
      ∀ i ∈ lookedAt (hierarchy doc), matchesQuery q i = true → isSymbol i.kind = true) : ∃ r, request q fs = some r := by
  induction fs with
  | nil => exact ⟨[], rfl⟩
  | cons f fs ih =>
    obtain ⟨r, hr⟩ := ih fun g hg => h g (List.mem_cons_of_mem _ hg)
    rw [request]
    cases hs : f.source with
    | none => exact ⟨r, hr⟩
    | some doc =>
      obtain ⟨⟨u, hu⟩, hm⟩ := h f (List.mem_cons_self ..) doc hs
      simp only [hu, filterSymbols_some hm, hr]
      exact ⟨_, rfl⟩

/-- **C93.** A search for a text that is not empty is always answered. Missing: the search for the empty text, see
`empty_search_panics`. -/
theorem search_answers_partial {text : List Char} (ht : text ≠ []) {fs : List (File U)}
    (hf : ∀ f ∈ fs, ∀ doc, f.source = some doc → (∃ u, f.uri = some u) ∧ Named doc) : ∃ r, search text fs = some r := by
  refine request_some fun f hf' doc hd => ⟨(hf f hf' doc hd).1, fun i hi hm => ?_⟩
  rw [isSymbol_iff]
  refine (hf f hf' doc hd).2 i ?_ ?_
  · rw [← Sections.hierarchy_complete]; exact (lookedAt_sub _).subset hi
  · obtain ⟨a, b, e⟩ := (matches_iff text i).mp hm
    intro e'
    rw [e'] at e
    have := congrArg List.length e
    simp at this
    exact ht (List.eq_nil_of_length_eq_zero (by omega))

/-- **C93.** Every heading of the first or second level that is not inside of another item is found by every text in its
name, whatever else the documents contain. Missing: deeper headings, see `deep_heading_missed`. -/
theorem headings_found_partial {text : List Char} {fs : List (File U)} {r : List (U × Info)} (h : search text fs = some r)
    {f : File U} (hf : f ∈ fs) {u : U} (hu : f.uri = some u) {pre post children : List Node} {i : Info}
    (hd : f.source = some (pre ++ .item i children :: post)) (hl : Levels (pre ++ .item i children :: post))
    (hk : i.kind = .heading 1 ∨ i.kind = .heading 2) (hp : Part text i.name) : (u, i) ∈ r := by
  have hkl : ∃ l, i.kind = .heading l ∧ l ≤ 2 := by rcases hk with hk | hk <;> exact ⟨_, hk, by omega⟩
  obtain ⟨l, hkl, hl2⟩ := hkl
  refine (request_mem h u i).mpr ⟨f, hf, _, hd, hu, List.mem_filter.mpr ⟨?_, (matches_iff text i).mpr hp⟩,
    (isSymbol_iff i).mpr (.inl ⟨l, hkl⟩)⟩
  rw [lookedAt_hierarchy, Sections.checks_append, Sections.checks]
  apply visible_checks
  rw [Sections.check, visible_close]
  apply visible_checks
  have hlp : ∀ j ∈ infos pre, ∀ k, j.kind = .heading k → 1 ≤ k := fun j hj => hl j (by
    rw [Sections.infos_append]; exact List.mem_append_left _ hj)
  have hsh : Sections.Shape [Sections.bottom.1] (Sections.checks pre (Sections.bottom, [])) :=
    Sections.checks_shape pre _ _ ⟨Sections.bottom.1, [], rfl, rfl⟩ ⟨[], [], rfl, by simp, by simp⟩
  have hg : Good (Sections.checks pre (Sections.bottom, [])) := good_checks pre _ ⟨trivial, rfl⟩
  have ho := order_start pre
  generalize Sections.checks pre (Sections.bottom, []) = s at hsh hg ho
  obtain ⟨hs, e1, e2⟩ := Sections.breakTo_shape (base := [Sections.bottom.1]) ⟨_, [], rfl, rfl⟩ l s.1 s.2 hsh
  have hgo : Good (Sections.push i (Sections.open_ i.kind s)) := good_open_push hg
  have hoo : Sections.order (Sections.open_ i.kind s) = Sections.bottom.1 :: infos pre := by
    rw [Sections.order_open]; exact ho
  have hmem : ∀ x ∈ ((Sections.open_ i.kind s).1 :: (Sections.open_ i.kind s).2).map (·.1),
      x ∈ Sections.bottom.1 :: infos pre := by
    intro x hx
    obtain ⟨fr, hfr, rfl⟩ := List.mem_map.mp hx
    exact hoo ▸ mem_order hfr
  have hopen : Sections.open_ i.kind s = Sections.breakTo l s.1 s.2 := by rw [hkl]; rfl
  rw [hopen] at hgo hmem ⊢
  generalize Sections.breakTo l s.1 s.2 = t at hgo hmem e1
  have hst := hgo.1
  simp only [Sections.push, List.map_cons] at hst
  rw [List.map_cons] at e1
  rw [e1] at hst
  rw [List.map_cons, e1] at hmem
  obtain ⟨t1, t2⟩ := t
  simp only at e1
  -- at most one heading is below
  have hlen : t2.length ≤ 1 := by
    cases hs with
    | nil =>
      have := congrArg List.length e1
      simp only [List.length_cons, List.length_map, List.length_append, List.length_nil] at this
      omega
    | cons a hs =>
      cases hs with
      | nil => have := congrArg List.length e1; simp at this; omega
      | cons b hs =>
        exfalso
        obtain ⟨s1, s2, _⟩ := hst
        obtain ⟨la, ha⟩ := e2 a (by simp)
        obtain ⟨lb, hb⟩ := e2 b (by simp)
        have h1 := s1 l hkl
        have h2 := s2 la ha
        rw [ha] at h1; rw [hb] at h2
        simp only [Sections.stops, decide_eq_true_eq] at h1 h2
        have hbb := hmem b (by simp)
        rcases List.mem_cons.mp hbb with hbb | hbb
        · rw [hbb] at hb; cases hb
        · have := hlp b hbb lb hb
          omega
  cases t2 with
  | nil => simp [visible, Sections.push, shown]
  | cons c t2 =>
    cases t2 with
    | nil => simp [visible, Sections.push, shown]
    | cons d t2 => simp at hlen

/-- **C93.** If no section is nested more than two deep and there are no comments and lists, a search finds exactly the
headings and definitions whose name contains the text, in the order of the document. -/
theorem search_exact_partial (text : List Char) (u : U) {doc : List Node} (hs : ∀ i ∈ infos doc, IsSymbol i)
    (hd : Shallow (hierarchy doc)) :
    ∃ r : List Info, search text [⟨some doc, some u⟩] = some (r.map (u, ·)) ∧ r.Sublist (infos doc) ∧
      ∀ i, i ∈ r ↔ i ∈ infos doc ∧ Part text i.name := by
  refine ⟨(infos doc).filter (matchesQuery (if text.isEmpty then none else some text)), ?_, List.filter_sublist, ?_⟩
  · rw [search, request]
    simp only
    rw [lookedAt_shallow hd, Sections.hierarchy_complete,
      filterSymbols_some fun i hi _ => (isSymbol_iff i).mpr (hs i hi)]
    simp [request]
  · intro i
    rw [List.mem_filter, matches_iff]

/-- **C93.** The labels listed are labels of the files, and if no section is nested more than two deep all of them are. -/
theorem labels_listed_partial (label : Info → Bool) (fs : List (File U)) (u : U) (i : Info) :
    ((u, i) ∈ labels label fs → label i = true ∧ ∃ f ∈ fs, f.uri = some u ∧ ∃ doc, f.source = some doc ∧ i ∈ infos doc) ∧
      (∀ f ∈ fs, ∀ doc, f.source = some doc → f.uri = some u → Shallow (hierarchy doc) → i ∈ infos doc → label i = true →
        (u, i) ∈ labels label fs) := by
  induction fs with
  | nil => simp [labels]
  | cons f fs ih =>
    have hstep : ∀ x, x ∈ labels label (f :: fs) ↔
        (∃ doc v, f.source = some doc ∧ f.uri = some v ∧ x ∈ ((lookedAt (hierarchy doc)).filter label).map (v, ·)) ∨
          x ∈ labels label fs := by
      intro x
      rw [labels]
      cases hs : f.source <;> cases hu : f.uri <;> simp
    constructor
    · intro h
      rcases (hstep _).mp h with ⟨doc, v, h1, h2, h3⟩ | h
      · obtain ⟨j, hj, e⟩ := List.mem_map.mp h3
        cases e
        rw [List.mem_filter] at hj
        refine ⟨hj.2, f, List.mem_cons_self .., h2, doc, h1, ?_⟩
        rw [← Sections.hierarchy_complete]
        exact (lookedAt_sub _).subset hj.1
      · obtain ⟨h1, g, hg, x⟩ := ih.1 h
        exact ⟨h1, g, List.mem_cons_of_mem _ hg, x⟩
    · intro g hg doc h1 h2 h3 h4 h5
      apply (hstep _).mpr
      rcases List.mem_cons.mp hg with rfl | hg
      · refine .inl ⟨doc, u, h1, h2, List.mem_map.mpr ⟨i, List.mem_filter.mpr ⟨?_, h5⟩, rfl⟩⟩
        rw [lookedAt_shallow h3, Sections.hierarchy_complete]
        exact h4
      · exact .inr (ih.2 g hg doc h1 h2 h3 h4 h5)

/-! ## What goes wrong -/

private def at_ (l : Nat) : Folding.Loc := ⟨l, 0⟩
private def head (l : Nat) (name : String) (line : Nat) : Node := .item ⟨name.toList, .heading l, at_ line, at_ line⟩ []
private def intro_ : Node := head 1 "Intro" 0
private def sub : Node := head 2 "Sub" 1
private def deep : Node := head 3 "Deep" 2
private def lab : Node := .item ⟨"here".toList, .symbol, at_ 2, at_ 2⟩ []

/-- **C93, violated.** With an empty text, with which clients begin a search, the request fails if there is a comment or a
list item in a document. -/
theorem empty_search_panics :
    search [] [⟨some [.comment (at_ 0) (at_ 0), intro_], some 0⟩] = none ∧
      search [] [⟨some [.item ⟨[], .block, at_ 0, at_ 0⟩ [], intro_], some 0⟩] = none := by
  decide +kernel

/-- **C93, violated.** A heading of the third level is not found by its name. -/
theorem deep_heading_missed :
    search "Deep".toList [⟨some [intro_, sub, deep], some 0⟩] = some [] ∧
      (search "Sub".toList [⟨some [intro_, sub, deep], some 0⟩]).map List.length = some 1 := by
  decide +kernel

/-- **C93, violated.** A label below a heading of the second level is not listed. -/
theorem deep_label_missed : labels (fun i => i.kind = .symbol) [⟨some [intro_, sub, lab], some 0⟩] = [] ∧
    (labels (fun i => i.kind = .symbol) [⟨some [intro_, lab], some 0⟩]).length = 1 := by
  decide +kernel

/-- The hypotheses of `headings_found_partial` and `search_answers_partial` hold for a document with a comment, three
headings and a label. -/
example : Levels ([.comment (at_ 0) (at_ 0), intro_] ++ .item ⟨"Sub".toList, .heading 2, at_ 1, at_ 1⟩ [] :: [deep, lab]) ∧
    Named ([.comment (at_ 0) (at_ 0), intro_] ++ .item ⟨"Sub".toList, .heading 2, at_ 1, at_ 1⟩ [] :: [deep, lab]) ∧
    Part "u".toList "Sub".toList := by
  refine ⟨?_, ?_, ['S'], ['b'], by decide⟩
  · intro i hi l hl
    simp [infos, Sections.info, intro_, head, deep, lab] at hi
    rcases hi with rfl | rfl | rfl | rfl | rfl <;> simp at hl <;> omega
  · intro i hi hn
    simp [infos, Sections.info, intro_, head, deep, lab] at hi
    rcases hi with rfl | rfl | rfl | rfl | rfl <;> simp [IsSymbol] at hn ⊢

/-- Those of `search_exact_partial` hold for two headings and a label in the first section. -/
example : (∀ i ∈ infos [intro_, lab, sub], IsSymbol i) ∧ Shallow (hierarchy [intro_, lab, sub]) := by
  have e : hierarchy [intro_, lab, sub] = [.node ⟨"Intro".toList, .heading 1, at_ 0, at_ 0⟩
      [.node ⟨"here".toList, .symbol, at_ 2, at_ 2⟩ [], .node ⟨"Sub".toList, .heading 2, at_ 1, at_ 1⟩ []]] := by rfl
  refine ⟨?_, ?_⟩
  · intro i hi
    simp [infos, Sections.info, intro_, head, sub, lab] at hi
    rcases hi with rfl | rfl | rfl <;> simp [IsSymbol]
  · rw [e]
    intro t ht
    simp at ht; subst ht
    simp

end Tinymist.Symbols
