import Verif.Lemmas.Outline2

/-!
# C66: the outline and the folds of a document follow its sections
-/

namespace Tinymist.Sections

/-- **C66.** The hierarchy of a document has every item of it once, in the order of the text. -/
theorem hierarchy_complete (doc : List Node) : preorder (hierarchy doc) = infos doc := by
  have h1 := order_finishTo 1 (checks doc (bottom, [])).1 (checks doc (bottom, [])).2
  rw [show ((checks doc (bottom, [])).1, (checks doc (bottom, [])).2) = checks doc (bottom, []) from rfl,
    order_checks] at h1
  have h2 := finishTo_one (checks doc (bottom, [])).1 (checks doc (bottom, [])).2
  have h3 : ∀ i, order (i, []) = i.1 :: preorder i.2 := fun i => by simp [order]
  have h4 : order (finishTo 1 (checks doc (bottom, [])).1 (checks doc (bottom, [])).2) =
      (finishTo 1 (checks doc (bottom, [])).1 (checks doc (bottom, [])).2).1.1 :: preorder (hierarchy doc) := by
    rw [hierarchy]
    generalize finishTo 1 (checks doc (bottom, [])).1 (checks doc (bottom, [])).2 = f at *
    obtain ⟨f1, f2⟩ := f
    simp only at h2
    subst h2
    exact h3 f1
  rw [h4, h3, List.cons_append] at h1
  simpa [bottom, preorder] using (List.cons.inj h1).2

theorem inside_dec (l : Nat) (n : Node) : Inside l n ∨ ¬ Inside l n := Classical.em _

theorem split_inside (l : Nat) (ns : List Node) : ∃ a b, ns = a ++ b ∧ (∀ n ∈ a, Inside l n) ∧
    ∀ n, b.head? = some n → ¬ Inside l n := by
  induction ns with
  | nil => exact ⟨[], [], rfl, by simp, by simp⟩
  | cons n ns ih =>
    obtain ⟨a, b, rfl, h1, h2⟩ := ih
    rcases inside_dec l n with h | h
    · exact ⟨n :: a, b, rfl, by simpa using ⟨h, h1⟩, h2⟩
    · exact ⟨[], n :: (a ++ b), rfl, by simp, fun m hm => by
        have : n = m := by simpa using hm
        exact this ▸ h⟩

theorem infos_append (a b : List Node) : infos (a ++ b) = infos a ++ infos b := by
  induction a with
  | nil => simp [infos]
  | cons n a ih => simp [infos, ih]

/-- A document without comments has a nesting. -/
theorem nests_exists (k : Nat) : ∀ doc : List Node, (infos doc).length ≤ k → plainDoc doc = true → ∃ t, Nests doc t := by
  induction k with
  | zero =>
    intro doc hk _
    cases doc with
    | nil => exact ⟨[], .nil⟩
    | cons n ns => cases n <;> simp [infos, info] at hk
  | succ k ih =>
    intro doc hk hp
    cases doc with
    | nil => exact ⟨[], .nil⟩
    | cons n ns =>
      cases n with
      | comment _ _ => simp [plainDoc, plainNode] at hp
      | item i children =>
        simp only [plainDoc, plainNode, Bool.and_eq_true] at hp
        simp only [infos, info, List.cons_append, List.length_cons, List.length_append] at hk
        obtain ⟨a, ha⟩ := ih children (by omega) hp.1.1
        by_cases hh : ∃ l, i.kind = .heading l
        · obtain ⟨l, hl⟩ := hh
          obtain ⟨x, y, rfl, h1, h2⟩ := split_inside l ns
          rw [plainDoc_append, Bool.and_eq_true] at hp
          rw [infos_append, List.length_append] at hk
          obtain ⟨b, hb⟩ := ih x (by omega) hp.2.1
          obtain ⟨c, hc⟩ := ih y (by omega) hp.2.2
          exact ⟨_, .heading i l children x y a b c hl h1 h2 ha hb hc⟩
        · obtain ⟨c, hc⟩ := ih ns (by omega) hp.2
          exact ⟨_, .other i children ns a c (fun l hl => hh ⟨l, hl⟩) ha hc⟩

/-- **C66.** Without comments, and with headings at the top or in lists only, the hierarchy nests every heading's section
in it, and no other trees do. -/
theorem sections_nested_partial {doc : List Node} (hp : plainDoc doc = true) :
    Nests doc (hierarchy doc) ∧ ∀ t, Nests doc t → t = hierarchy doc := by
  obtain ⟨t, ht⟩ := nests_exists _ doc (Nat.le_refl _) hp
  exact ⟨hierarchy_of_nests ht hp ▸ ht, fun u hu => (hierarchy_of_nests hu hp).symm⟩

mutual
theorem symbols_all : ∀ ts : List Tree, (∀ i ∈ preorder ts, isSymbol i.kind = true) → symbols ts = ts
  | [], _ => by rw [symbols]
  | t :: ts, h => by
    rw [symbols, symbol_all t fun i hi => h i (by rw [preorder]; exact List.mem_append_left _ hi),
      symbols_all ts fun i hi => h i (by rw [preorder]; exact List.mem_append_right _ hi)]
    rfl

theorem symbol_all : ∀ t : Tree, (∀ i ∈ preorder1 t, isSymbol i.kind = true) → symbol t = [t]
  | .node i children, h => by
    rw [symbol, if_pos (h i (by rw [preorder1]; exact List.mem_cons_self ..)),
      symbols_all children fun j hj => h j (by rw [preorder1]; exact List.mem_cons_of_mem _ hj)]
end

/-- **C66.** If a document has no comments and no lists, its outline lists every heading and definition once, in the
order of the text. -/
theorem outline_complete_partial {doc : List Node} (h : ∀ i ∈ infos doc, isSymbol i.kind = true) :
    preorder (outline doc) = infos doc := by
  rw [outline, symbols_all _ (by rw [hierarchy_complete]; exact h), hierarchy_complete]

/-- **C66.** If moreover no heading is inside of another item, the outline nests sections. -/
theorem outline_nested_partial {doc : List Node} (h : ∀ i ∈ infos doc, isSymbol i.kind = true) (hp : plainDoc doc = true) :
    Nests doc (outline doc) := by
  rw [outline, symbols_all _ (by rw [hierarchy_complete]; exact h)]
  exact (sections_nested_partial hp).1

mutual
theorem symbols_sub : ∀ ts : List Tree, (preorder (symbols ts)).Sublist ((preorder ts).filter fun i => isSymbol i.kind)
  | [] => by simp [symbols, preorder]
  | t :: ts => by
    rw [symbols, preorder_append, preorder, List.filter_append]
    exact (symbol_sub t).append (symbols_sub ts)

theorem symbol_sub : ∀ t : Tree, (preorder (symbol t)).Sublist ((preorder1 t).filter fun i => isSymbol i.kind)
  | .node i children => by
    rw [symbol, preorder1]
    split
    · rename_i h
      rw [List.filter_cons_of_pos (p := fun i : Info => isSymbol i.kind) h]
      simp only [preorder, preorder1, List.append_nil]
      exact (symbols_sub children).cons_cons _
    · simp [preorder]
end

/-- **C66.** Whatever the document, the outline has nothing but its headings and definitions, none twice, in order. -/
theorem outline_sound (doc : List Node) :
    (preorder (outline doc)).Sublist ((infos doc).filter fun i => isSymbol i.kind) := by
  rw [← hierarchy_complete]; exact symbols_sub _

/-- **C66.** Whatever else is in the document, the outline lists every heading that is not inside of another item. -/
theorem headings_listed (pre post children : List Node) (i : Info) (l : Nat) (hk : i.kind = .heading l) :
    i ∈ preorder (outline (pre ++ .item i children :: post)) := by
  have h0 : Shape [bottom.1] (checks pre (bottom, [])) :=
    checks_shape pre _ _ ⟨bottom.1, [], rfl, rfl⟩ ⟨[], [], rfl, by simp, by simp⟩
  have h1 : i ∈ visible (checks (pre ++ .item i children :: post) (bottom, [])) := by
    rw [checks_append, checks]
    exact visible_checks post _ i (heading_seen h0 hk children)
  rw [outline, hierarchy]
  generalize checks (pre ++ .item i children :: post) (bottom, []) = s at h1
  rw [← visible_finishTo 1 s.1 s.2] at h1
  have h2 := finishTo_one s.1 s.2
  generalize finishTo 1 s.1 s.2 = f at h1 h2
  obtain ⟨f1, f2⟩ := f
  simp only at h2
  subst h2
  simpa [visible, seen] using h1

/-! ## Folding -/

theorem items_append (a b : List Tree) : items (a ++ b) = items a ++ items b := by
  induction a with
  | nil => simp [items]
  | cons t a ih => simp [items, ih]

theorem folds_suffix {pl la : Folding.Loc} {il : Bool} {f : Folding.Fold} (a b : List Folding.Item) (h : f ∈ Folding.folds pl la il b) :
    f ∈ Folding.folds pl la il (a ++ b) := by
  induction a with
  | nil => exact h
  | cons x a ih => rw [List.cons_append, Folding.folds]; exact List.mem_append_right _ ih

theorem split_unique {l : Nat} {a b c d : List Node} (h : a ++ b = c ++ d) (ha : ∀ n ∈ a, Inside l n)
    (hb : ∀ n, b.head? = some n → ¬ Inside l n) (hc : ∀ n ∈ c, Inside l n)
    (hd : ∀ n, d.head? = some n → ¬ Inside l n) : a = c ∧ b = d := by
  induction a generalizing c with
  | nil =>
    cases c with
    | nil => exact ⟨rfl, h⟩
    | cons x c =>
      rw [List.nil_append] at h
      exact (hb x (by rw [h]; rfl) (hc x (List.mem_cons_self ..))).elim
  | cons x a ih =>
    cases c with
    | nil =>
      rw [List.nil_append] at h
      exact (hd x (by rw [← h]; rfl) (ha x (List.mem_cons_self ..))).elim
    | cons y c =>
      rw [List.cons_append, List.cons_append] at h
      obtain ⟨rfl, h0⟩ := List.cons.inj h
      obtain ⟨rfl, h1⟩ := ih h0 (fun n hn => ha n (List.mem_cons_of_mem _ hn)) fun n hn => hc n (List.mem_cons_of_mem _ hn)
      exact ⟨rfl, h1⟩

/-- The fold of a heading: it starts with the heading and ends with line `stop`. -/
def FoldsTo (i : Info) (stop : Nat) (l : List Folding.Fold) : Prop := ∃ f ∈ l, f.start = i.start.line ∧ f.stop = max i.stop.line stop

theorem FoldsTo.mono {i : Info} {stop : Nat} {l l' : List Folding.Fold} (h : FoldsTo i stop l) (hs : ∀ f ∈ l, f ∈ l') :
    FoldsTo i stop l' := by
  obtain ⟨f, h1, h2⟩ := h
  exact ⟨f, hs f h1, h2⟩

theorem nests_head {ns : List Node} {t : List Tree} (h : Nests ns t) :
    (items t).head?.map Folding.Item.start = ns.head?.map (fun n => match n with | .item i _ => i.start | .comment s _ => s) := by
  cases h <;> simp [items, item, Folding.Item.start]

theorem fold_ends {ns : List Node} {t : List Tree} (h : Nests ns t) : ∀ (pre : List Node) (i : Info) (children section_ post : List Node)
    (l : Nat), ns = pre ++ .item i children :: (section_ ++ post) → i.kind = .heading l → (∀ n ∈ section_, Inside l n) →
    (post = [] → ∀ pl la il, FoldsTo i (if il then la else pl).line (Folding.folds pl la il (items t))) ∧
    (∀ j cs k, post.head? = some (.item j cs) → j.kind = .heading k → k ≤ l →
      (∀ m ∈ pre, ∀ x, m.kind = .heading x → x < k ∨ l ≤ x) →
      ∀ pl la il, FoldsTo i (j.start.line - 1) (Folding.folds pl la il (items t))) := by
  induction h with
  | nil => intro pre i children section_ post l e; simp at e
  | other i0 ch0 rest0 a0 c0 hk0 _ _ _ ihc =>
    intro pre i children section_ post l e hk hin
    cases pre with
    | nil =>
      rw [List.nil_append] at e
      injection (List.cons.inj e).1 with e1
      exact (hk0 l (e1 ▸ hk)).elim
    | cons p pre =>
      rw [List.cons_append] at e
      obtain ⟨h1, h2⟩ := ihc pre i children section_ post l (List.cons.inj e).2 hk hin
      refine ⟨fun hp pl la il => (h1 hp pl la il).mono fun f hf => ?_, fun j cs k hj hjk hkl hpre pl la il =>
        (h2 j cs k hj hjk hkl (fun m hm => hpre m (List.mem_cons_of_mem _ hm)) pl la il).mono fun f hf => ?_⟩
      all_goals
        rw [items, Folding.folds]
        exact List.mem_append_right _ hf
  | heading i0 l0 ch0 sec0 rest0 a0 b0 c0 hk0 hin0 hout0 _ _ hc0 _ ihb ihc =>
    intro pre i children section_ post l e hk hin
    cases pre with
    | nil =>
      rw [List.nil_append] at e
      obtain ⟨e1, e2⟩ := List.cons.inj e
      injection e1 with e1 e3
      subst e1; subst e3
      have hl : l0 = l := by rw [hk0] at hk; injection hk
      subst hl
      constructor
      · rintro rfl pl la il
        obtain ⟨rfl, rfl⟩ := split_unique e2 hin0 hout0 hin (by simp)
        cases hc0
        refine ⟨Folding.foldOf .heading i0.start i0.stop none pl la il, ?_, rfl, ?_⟩
        · simp [items, item, hk0, foldKind, Folding.folds, Folding.foldsItem]
        · simp [Folding.foldOf]
      · intro j cs k hj hjk hkl _ pl la il
        have hnot : ¬ Inside l0 (Node.item j cs) := fun hin => by
          have := hin k hjk; omega
        obtain ⟨rfl, rfl⟩ := split_unique e2 hin0 hout0 hin fun n hn => by
          rw [hj] at hn; injection hn with hn; exact hn ▸ hnot
        have hh := nests_head hc0
        rw [hj] at hh
        refine ⟨Folding.foldOf .heading i0.start i0.stop (some j.start) pl la il, ?_, rfl, ?_⟩
        · simp only [items, item, hk0, foldKind, Folding.folds, Folding.foldsItem]
          rw [hh]; simp
        · simp [Folding.foldOf]
    | cons p pre =>
      rw [List.cons_append] at e
      obtain ⟨e1, e2⟩ := List.cons.inj e
      have hsub : ∀ pl la il f, f ∈ Folding.folds pl la il (items c0) →
          f ∈ Folding.folds pl la il (items (.node i0 (a0 ++ b0) :: c0)) := fun pl la il f hf => by
        rw [items, Folding.folds]; exact List.mem_append_right _ hf
      by_cases hle : ∃ pre', rest0 = pre' ++ .item i children :: (section_ ++ post) ∧ ∀ m ∈ pre', m ∈ pre
      · obtain ⟨pre', he, hpre'⟩ := hle
        obtain ⟨h1, h2⟩ := ihc pre' i children section_ post l he hk hin
        exact ⟨fun hp pl la il => (h1 hp pl la il).mono (hsub pl la il), fun j cs k hj hjk hkl hpre pl la il =>
          (h2 j cs k hj hjk hkl (fun m hm => hpre m (List.mem_cons_of_mem _ (hpre' m hm))) pl la il).mono (hsub pl la il)⟩
      · -- the heading is in the section of the first
        rcases List.append_eq_append_iff.mp e2 with ⟨u, hu1, hu2⟩ | ⟨u, hu1, hu2⟩
        · exact (hle ⟨u, hu2, fun m hm => by rw [hu1]; exact List.mem_append_right _ hm⟩).elim
        · cases u with
          | nil =>
            rw [List.append_nil] at hu1
            exact (hle ⟨[], by rw [List.nil_append] at hu2 ⊢; exact hu2.symm, by simp⟩).elim
          | cons v u =>
            rw [List.cons_append] at hu2
            obtain ⟨hv, hu3⟩ := List.cons.inj hu2
            clear hu2
            have hu2 := hu3
            clear hu3
            subst hv
            have hl0 : l0 < l := hin0 (.item i children) (by rw [hu1]; simp) l hk
            have hsec : ∀ n ∈ section_, Inside l0 n := fun n hn x hx => Nat.lt_trans hl0 (hin n hn x hx)
            constructor
            · rintro rfl pl la il
              rw [List.append_nil] at hu2
              have hr : rest0 = [] := by
                cases rest0 with
                | nil => rfl
                | cons r rs =>
                  exact (hout0 r rfl (hsec r (by rw [hu2]; simp))).elim
              subst hr
              rw [List.append_nil] at hu2
              cases hc0
              obtain ⟨h1, _⟩ := ihb pre i children section_ [] l (by rw [hu1, List.append_nil, hu2]) hk hin
              refine (h1 rfl pl la il).mono fun f hf => ?_
              rw [items, item, items, Folding.folds, Folding.foldsItem]
              refine List.mem_append_left _ (List.mem_append_left _ ?_)
              rw [items_append]
              refine folds_suffix _ _ ?_
              simpa using hf
            · intro j cs k hj hjk hkl hpre pl la il
              have hp0 : p = .item i0 ch0 := e1.symm
              have hlk : l0 < k := by
                rcases hpre p (List.mem_cons_self ..) l0 (by rw [hp0]; exact hk0) with h | h
                · exact h
                · omega
              have hjin : Inside l0 (Node.item j cs) := fun x hx => by
                have : j.kind = .heading x := hx
                rw [hjk] at this; injection this with this; omega
              have : ∃ w, u = section_ ++ w ∧ w.head? = some (.item j cs) := by
                rcases List.append_eq_append_iff.mp hu2 with ⟨w, hw1, hw2⟩ | ⟨w, hw1, hw2⟩
                · cases w with
                  | nil =>
                    rw [List.nil_append] at hw2
                    exact (hout0 (.item j cs) (by rw [← hw2]; exact hj) hjin).elim
                  | cons w0 w =>
                    rw [hw2] at hj
                    exact ⟨w0 :: w, hw1, by simpa using hj⟩
                · cases w with
                  | nil =>
                    rw [List.nil_append] at hw2
                    exact (hout0 (.item j cs) (by rw [hw2]; exact hj) hjin).elim
                  | cons w0 w =>
                    exact (hout0 w0 (by rw [hw2]; rfl) (hsec w0 (by rw [hw1]; simp))).elim
              obtain ⟨w, hw1, hw2⟩ := this
              obtain ⟨_, h2⟩ := ihb pre i children section_ w l (by rw [hu1, hw1]) hk hin
              rw [items, item, Folding.folds, Folding.foldsItem]
              refine (h2 j cs k hw2 hjk hkl (fun m hm => hpre m (List.mem_cons_of_mem _ hm))
                (if (items c0).head?.isSome then i0.stop else pl) la (il && (items c0).head?.isNone)).mono fun f hf =>
                List.mem_append_left _ (List.mem_append_left _ ?_)
              rw [items_append]
              exact folds_suffix _ _ hf

theorem foldsTo_request {eof : Folding.Loc} {its : List Folding.Item} {i : Info} {stop : Nat}
    (h : FoldsTo i stop (Folding.folds eof eof true its)) :
    (i.start.line, max i.stop.line stop) ∈ Folding.request false eof its := by
  obtain ⟨f, h1, h2, h3⟩ := h
  simp only [Folding.request]
  rw [if_neg (by simp)]
  exact List.mem_map.mpr ⟨f, h1, by rw [h2, h3]⟩

/-- **C66.** A heading whose section is the last of the document folds to the end of the document. -/
theorem last_section_folds_partial {pre children section_ : List Node} {i : Info} {l : Nat}
    (hp : plainDoc (pre ++ .item i children :: section_) = true) (hk : i.kind = .heading l)
    (hin : ∀ n ∈ section_, Inside l n) (eof : Folding.Loc) :
    (i.start.line, max i.stop.line eof.line) ∈ foldLines false eof (pre ++ .item i children :: section_) := by
  have h := (fold_ends (sections_nested_partial hp).1 pre i children section_ [] l (by rw [List.append_nil]) hk hin).1
    rfl eof eof true
  exact foldsTo_request h

/-- **C66.** A heading folds to the line before the heading that ends its section, if that one is of the same level, or
if it ends no other section with it. -/
theorem section_folds_partial {pre children section_ cs post : List Node} {i j : Info} {l k : Nat}
    (hp : plainDoc (pre ++ .item i children :: (section_ ++ .item j cs :: post)) = true) (hk : i.kind = .heading l)
    (hin : ∀ n ∈ section_, Inside l n) (hj : j.kind = .heading k) (hkl : k ≤ l)
    (hpre : ∀ m ∈ pre, ∀ x, m.kind = .heading x → x < k ∨ l ≤ x) (eof : Folding.Loc) :
    (i.start.line, max i.stop.line (j.start.line - 1)) ∈
      foldLines false eof (pre ++ .item i children :: (section_ ++ .item j cs :: post)) := by
  have h := (fold_ends (sections_nested_partial hp).1 pre i children section_ (.item j cs :: post) l rfl hk hin).2
    j cs k rfl hj hkl hpre eof eof true
  exact foldsTo_request h

/-! ## What does not hold -/

/-- `// c` and then `#let x = 1`. -/
def commented : List Node :=
  [.comment ⟨0, 0⟩ ⟨0, 4⟩, .item ⟨"x".toList, .symbol, ⟨1, 5⟩, ⟨1, 6⟩⟩ []]

/-- **C66, violated.** A definition after a comment is not in the outline. -/
theorem comment_hides : outline commented = [] := by simp [commented, outline, hierarchy, checks, check, commentInfo, push, open_, close,
  Stack.height, finishTo, attach, bottom, symbols, symbol, isSymbol]

/-- `- #let x = 1`. -/
def listed : List Node :=
  [.item ⟨[], .block, ⟨0, 0⟩, ⟨0, 13⟩⟩ [.item ⟨"x".toList, .symbol, ⟨0, 7⟩, ⟨0, 8⟩⟩ []]]

/-- **C66, violated.** A definition in a list is not in the outline. -/
theorem list_hides : outline listed = [] := by simp [listed, outline, hierarchy, checks, check, push, open_, close,
  Stack.height, finishTo, attach, bottom, symbols, symbol, isSymbol]

def secH : Info := ⟨"H".toList, .heading 1, ⟨0, 0⟩, ⟨0, 3⟩⟩
def funF : Info := ⟨"f".toList, .symbol, ⟨1, 5⟩, ⟨1, 6⟩⟩
def secA : Info := ⟨"A".toList, .heading 1, ⟨1, 12⟩, ⟨1, 15⟩⟩
def varY : Info := ⟨"y".toList, .symbol, ⟨2, 5⟩, ⟨2, 6⟩⟩

/-- `= H`, `#let f(x) = [= A]`, `#let y = 1`. -/
def captured : List Node := [.item secH [], .item funF [.item secA []], .item varY []]

/-- **C66, violated.** A heading in the body of a function ends the section the function is in: what follows the function
is listed under that heading. -/
theorem inner_heading_captures : outline captured = [.node secH [.node funF []], .node secA [.node varY []]] := by
  simp [captured, outline, hierarchy, checks, check, push, open_, close, breakTo, stops,
    Stack.height, finishTo, attach, bottom, symbols, symbol, isSymbol, secH, funF, secA, varY]

def top1 : Info := ⟨"A".toList, .heading 1, ⟨0, 0⟩, ⟨0, 3⟩⟩
def sub2 : Info := ⟨"B".toList, .heading 2, ⟨1, 0⟩, ⟨1, 4⟩⟩
def top2 : Info := ⟨"C".toList, .heading 1, ⟨5, 0⟩, ⟨5, 3⟩⟩

/-- `= A`, `== B`, three lines of text, `= C`. -/
def subsection : List Node := [.item top1 [], .item sub2 [], .item top2 []]

/-- **C66, violated.** The last subsection of a section that is not the last folds no line but its heading's; its section
goes on to line 4. -/
theorem last_subsection_unfolded : foldLines false ⟨9, 0⟩ subsection = [(1, 1), (0, 4), (5, 9)] := by decide

/-- A list item on lines 0 and 1 that starts with a heading; the document goes on to line 9. -/
def inList : List Node :=
  [.item ⟨[], .block, ⟨0, 0⟩, ⟨1, 8⟩⟩ [.item ⟨"A".toList, .heading 1, ⟨0, 2⟩, ⟨0, 5⟩⟩ []]]

/-- **C66, violated.** The fold of a heading in a list item goes beyond the item. -/
theorem fold_leaves_list : foldLines false ⟨9, 0⟩ inList = [(0, 9), (0, 1)] := by decide

/-! ## Witnesses -/

example : plainDoc subsection = true ∧ plainDoc inList = true ∧ plainDoc captured = false := by decide
example : ∀ i ∈ infos subsection, isSymbol i.kind = true := by decide
example : Nests subsection [.node top1 [.node sub2 []], .node top2 []] :=
  .heading top1 1 [] [.item sub2 []] [.item top2 []] [] [.node sub2 []] [.node top2 []] rfl
    (by intro n hn k hk; simp at hn; subst hn; simp [Node.kind, sub2] at hk; omega)
    (by intro n hn h; simp at hn; subst hn; have := h 1 rfl; omega) .nil
    (.heading sub2 2 [] [] [] [] [] [] rfl (by simp) (by simp) .nil .nil .nil)
    (.heading top2 1 [] [] [] [] [] [] rfl (by simp) (by simp) .nil .nil .nil)

end Tinymist.Sections
