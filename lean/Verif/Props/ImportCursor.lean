import Verif.Spec.ImportCursor
import Verif.Props.Context
import Verif.Props.CompleteOffers

/-!
# Completing in a list of imported names (C178)
-/

namespace Tinymist.ImportCursor

open Mode (Kind trivia)
open Pointer
open Context (Child)

/-! ## Lists -/

theorem names_idents {cs : List Tree} {ns : List Text} (h : Idents cs ns) : names cs = ns := by
  induction h with
  | nil => rfl
  | name _ ih => simpa [names, Tree.kind, Tree.text] using ih
  | skip hk _ ih => simpa [names, hk] using ih

theorem idents_all (cs : List Tree) (hc : ∀ t ∈ cs, t.kind = .ident → ∃ n, t = .leaf .ident n) : ∃ ns, Idents cs ns := by
  induction cs with
  | nil => exact ⟨[], .nil⟩
  | cons t cs ih =>
    obtain ⟨ns, h⟩ := ih fun x hx => hc x (List.mem_cons_of_mem _ hx)
    by_cases hk : t.kind = .ident
    · obtain ⟨n, rfl⟩ := hc t (List.mem_cons_self ..) hk
      exact ⟨_, .name h⟩
    · exact ⟨_, .skip hk h⟩

theorem items_eq {cs : List Tree} {ps : List (List Text)} (h : Items cs ps) : cs.filterMap itemPath = ps := by
  induction h with
  | nil => rfl
  | plain hp _ ih => simp [itemPath, Tree.kind, childrenOf, names_idents hp, ih]
  | renamed hp _ ih => simp [itemPath, Tree.kind, childrenOf, names_idents hp, ih]
  | skip hk _ ih =>
    simp only [List.mem_cons, List.not_mem_nil, or_false, not_or] at hk
    simp [itemPath, hk.1, hk.2, ih]

theorem items_mem {cs l r p : List Tree} {ps : List (List Text)} {ns : List Text} (h : Items cs ps) (hc : cs = l ++ .inner .importItemPath p :: r)
    (hp : Idents p ns) : ns ∈ ps := by
  induction h generalizing l with
  | nil => simp at hc
  | plain hq _ ih =>
    cases l with
    | nil =>
      cases hc
      rw [← names_idents hp, ← names_idents hq]
      exact List.mem_cons_self ..
    | cons a l =>
      cases hc
      exact List.mem_cons_of_mem _ (ih rfl)
  | renamed hq _ ih =>
    cases l with
    | nil => cases hc
    | cons a l =>
      cases hc
      exact List.mem_cons_of_mem _ (ih rfl)
  | skip hk _ ih =>
    cases l with
    | nil =>
      cases hc
      exact absurd (List.mem_cons_self ..) hk
    | cons a l =>
      cases hc
      exact ih rfl

theorem importsOf_neither {cs l : List Tree} (h : Neither cs) : importsOf (cs ++ l) = importsOf l := by
  induction cs with
  | nil => rfl
  | cons c cs ih =>
    have hc := h c (List.mem_cons_self ..)
    rw [List.cons_append, importsOf, if_neg hc.1, if_neg hc.2]
    exact ih fun x hx => h x (List.mem_cons_of_mem _ hx)

theorem expr_neither {t : Tree} (h : isExpr t.kind = true) : t.kind ≠ .star ∧ t.kind ≠ .importItems := by
  constructor
  · intro e
    rw [e] at h
    cases h
  · intro e
    rw [e] at h
    cases h

theorem list_facts {imp items src : Place} {paths : List (List Text)} (h : ListOf imp items src paths) :
    importsOf (Context.children imp) = some (.items paths) ∧ sourceOf imp = some src ∧ items.parent = some imp ∧
      imp.tree.kind = .moduleImport ∧ items.tree.kind = .importItems := by
  cases h with
  | @mk pre mid post is s up paths h1 h2 h3 h4 h5 =>
    refine ⟨?_, ?_, by simp [Place.parent], rfl, rfl⟩
    · simp only [Context.children]
      have hs := expr_neither h3
      rw [importsOf_neither h1, importsOf, if_neg hs.1, if_neg hs.2, importsOf_neither h4, importsOf, if_neg (by simp [Tree.kind]),
        if_pos (by rfl)]
      simp [childrenOf, items_eq h5]
    · have := Context.firstIn_at (P := fun t => isExpr t.kind) (k := .moduleImport) (up := up) (x := s)
        (b := mid ++ .inner .importItems is :: post) h3 pre [] (fun y hy => h2 y hy)
      simpa [sourceOf, Context.first] using this

theorem bare_facts {imp src : Place} (h : Bare imp src) :
    importsOf (Context.children imp) = none ∧ sourceOf imp = some src ∧ imp.tree.kind = .moduleImport := by
  cases h with
  | @mk pre mid s up h1 h2 h3 h4 =>
    refine ⟨?_, ?_, rfl⟩
    · simp only [Context.children]
      have hs := expr_neither h3
      rw [importsOf_neither h1, importsOf, if_neg hs.1, if_neg hs.2]
      have := importsOf_neither (l := []) h4
      rw [List.append_nil] at this
      rw [this]
      rfl
    · have := Context.firstIn_at (P := fun t => isExpr t.kind) (k := .moduleImport) (up := up) (x := s) (b := mid) h3 pre [] (fun y hy => h2 y hy)
      simpa [sourceOf, Context.first] using this

theorem around_list {imp items src : Place} {paths : List (List Text)} (h : ListOf imp items src paths) :
    importAround items = some (paths, src) := by
  obtain ⟨h1, h2, h3, h4, h5⟩ := list_facts h
  unfold importAround
  rw [if_pos h5, h3, Option.bind_some, if_pos h4, h1]
  simp [h2]

theorem lastSolid_mem : ∀ {cs l r : List Tree} {t : Tree}, lastSolid cs = some (l, t, r) → t ∈ cs
  | [], _, _, _, h => by cases h
  | c :: cs, l, r, t, h => by
    unfold lastSolid at h
    split at h
    · rename_i l' t' r' he
      cases h
      exact List.mem_cons_of_mem _ (lastSolid_mem he)
    · split at h
      · cases h
      · cases h
        exact List.mem_cons_self ..

theorem behind_none {par p : Place} {l r : List Tree} (hc : Child par l p r) (hl : ∀ x ∈ l, x.kind ≠ .moduleImport) (text : Text) (cursor : Nat) :
    behindList text p cursor = none := by
  unfold behindList
  cases hs : p.prevSibling with
  | none => rfl
  | some q =>
    have hk : q.tree.kind ≠ .moduleImport := by
      unfold Place.prevSibling at hs
      rw [Context.child_up hc] at hs
      obtain ⟨⟨l', t, r'⟩, h1, h2⟩ := Option.map_eq_some_iff.mp hs
      rw [← h2]
      exact hl t (lastSolid_mem h1)
    rw [Option.bind_some, if_neg hk]

/-! ## Where the cursor is -/

/-- The import whose list a path is in: the path is a child of the list. -/
theorem in_path {imp items src path p : Place} {paths : List (List Text)} {l r il ir : List Tree} (h : ListOf imp items src paths)
    (hi : Child items il path ir) (hk : path.tree.kind = .importItemPath) (hc : Child path l p r) (hp : p.tree.kind = .ident ∨ p.tree.kind = .dot)
    (hl : ∀ x ∈ l, x.kind ≠ .moduleImport) (text : Text) (cursor : Nat) :
    completeImports text p cursor = some ⟨if p.tree.kind = .ident then some p.offset else none, paths, taken p, src, [], []⟩ := by
  have h1 : onColon p cursor = none := by
    unfold onColon
    rw [if_neg (by rcases hp with h | h <;> rw [h] <;> decide)]
  have h3 : onComma p = none := by
    unfold onComma
    rw [if_neg (by rcases hp with h | h <;> rw [h] <;> decide)]
  unfold completeImports
  rw [h1, behind_none hc hl, h3]
  simp only
  unfold inPath
  rw [if_pos hp, Context.child_parent hc, Option.bind_some, if_pos hk, Context.child_parent hi, Option.bind_some, around_list h]
  rfl

/-- **C178.** On a name in the path of an item, the name is completed by what the names before it lead to. -/
theorem on_name {imp items src path p : Place} {paths : List (List Text)} {l r il ir : List Tree} {n : Text} {ns : List Text}
    (h : ListOf imp items src paths) (hi : Child items il path ir) (hk : path.tree.kind = .importItemPath) (hc : Child path l p r)
    (hp : p.tree = .leaf .ident n) (hl : ∀ x ∈ l, x.kind ≠ .moduleImport) (hn : Idents l ns) (text : Text) (cursor : Nat) :
    completeImports text p cursor = some ⟨some p.offset, paths, ns, src, [], []⟩ := by
  have hkind : p.tree.kind = .ident := by rw [hp]; rfl
  rw [in_path h hi hk hc (.inl hkind) hl, if_pos hkind]
  unfold taken
  rw [Context.child_up hc]
  simp only
  rw [if_pos hkind, names_idents hn]

/-- **C178.** Behind a dot at the end of the path likewise. -/
theorem on_last_dot {imp items src path p : Place} {paths : List (List Text)} {l r il ir : List Tree} {n : Text} {ns : List Text}
    (h : ListOf imp items src paths) (hi : Child items il path ir) (hk : path.tree.kind = .importItemPath) (hc : Child path l p r)
    (hp : p.tree = .leaf .dot n) (hl : ∀ x ∈ l, x.kind ≠ .moduleImport) (hn : Idents l ns) (hr : Idents r []) (text : Text) (cursor : Nat) :
    completeImports text p cursor = some ⟨none, paths, ns, src, [], []⟩ := by
  have hkind : p.tree.kind = .dot := by rw [hp]; rfl
  have hne : p.tree.kind ≠ .ident := by rw [hkind]; decide
  rw [in_path h hi hk hc (.inr hkind) hl, if_neg hne]
  unfold taken
  rw [Context.child_up hc]
  simp only
  rw [if_neg hne, names_idents hn, names_idents hr, List.append_nil]

/-- **C178, violated.** Behind a dot that is followed by a name, names are completed by what the whole path leads to, the names behind the cursor
as well. -/
theorem on_dot_all {imp items src path p : Place} {paths : List (List Text)} {l r il ir : List Tree} {n : Text} {ns rs : List Text}
    (h : ListOf imp items src paths) (hi : Child items il path ir) (hk : path.tree.kind = .importItemPath) (hc : Child path l p r)
    (hp : p.tree = .leaf .dot n) (hl : ∀ x ∈ l, x.kind ≠ .moduleImport) (hn : Idents l ns) (hr : Idents r rs) (hrs : rs ≠ []) (text : Text)
    (cursor : Nat) :
    ∃ hit, completeImports text p cursor = some hit ∧ hit.path = ns ++ rs ∧ hit.path ≠ ns := by
  have hkind : p.tree.kind = .dot := by rw [hp]; rfl
  have hne : p.tree.kind ≠ .ident := by rw [hkind]; decide
  refine ⟨_, in_path h hi hk hc (.inr hkind) hl text cursor, ?_⟩
  have ht : taken p = ns ++ rs := by
    unfold taken
    rw [Context.child_up hc]
    simp only
    rw [if_neg hne, names_idents hn, names_idents hr]
  refine ⟨ht, ?_⟩
  rw [ht]
  simpa using hrs

/-- **C178.** Behind a comma, a new item is completed. -/
theorem on_comma {imp items src p : Place} {paths : List (List Text)} {l r : List Tree} {n : Text} (h : ListOf imp items src paths)
    (hc : Child items l p r) (hp : p.tree = .leaf .comma n) (hl : ∀ x ∈ l, x.kind ≠ .moduleImport) (text : Text) (cursor : Nat) :
    completeImports text p cursor = some ⟨none, paths, [], src, [' '], []⟩ := by
  have h1 : onColon p cursor = none := by
    unfold onColon
    rw [if_neg (by rw [hp]; simp [Tree.kind])]
  unfold completeImports
  rw [h1, behind_none hc hl]
  simp only
  unfold onComma
  rw [if_pos (by rw [hp]; rfl), Context.child_parent hc, Option.bind_some, around_list h]
  rfl

/-- **C178.** On the colon of an import the first item is completed; what is inserted is followed by a comma if there are items. -/
theorem on_colon {imp items src p : Place} {paths : List (List Text)} {l r : List Tree} {n : Text} (h : ListOf imp items src paths)
    (hc : Child imp l p r) (hp : p.tree = .leaf .colon n) (text : Text) (cursor : Nat) :
    ∃ b, completeImports text p cursor = some ⟨some cursor, paths, [], src, [], b⟩ ∧ (paths = [] → b = []) ∧ (paths ≠ [] → b = [',', ' ']) := by
  obtain ⟨h1, h2, h3, h4, -⟩ := list_facts h
  refine ⟨if paths.isEmpty then [] else [',', ' '], ?_, ?_, ?_⟩
  · unfold completeImports onColon
    rw [if_pos (by rw [hp]; rfl), Context.child_parent hc, Option.bind_some, if_pos h4, h1]
    simp [h2]
  · rintro rfl
    rfl
  · intro hne
    cases paths with
    | nil => exact absurd rfl hne
    | cons a l => rfl

/-- **C178.** So it is if nothing is behind the colon. -/
theorem on_bare_colon {imp src p : Place} {l r : List Tree} {n : Text} (h : Bare imp src) (hc : Child imp l p r) (hp : p.tree = .leaf .colon n)
    (text : Text) (cursor : Nat) : completeImports text p cursor = some ⟨some cursor, [], [], src, [], []⟩ := by
  obtain ⟨h1, h2, h3⟩ := bare_facts h
  unfold completeImports onColon
  rw [if_pos (by rw [hp]; rfl), Context.child_parent hc, Option.bind_some, if_pos h3, h1]
  simp [h2]

/-- **C178.** Behind `*` nothing is completed. -/
theorem wildcard {imp p : Place} {l r : List Tree} {n : Text} (hk : imp.tree.kind = .moduleImport)
    (hw : ∃ a s b, Context.children imp = a ++ s :: b ∧ Neither a ∧ s.kind = .star) (hc : Child imp l p r) (hp : p.tree = .leaf .colon n)
    (hl : ∀ x ∈ l, x.kind ≠ .moduleImport) (text : Text) (cursor : Nat) : completeImports text p cursor = none := by
  obtain ⟨a, s, b, h1, h2, h3⟩ := hw
  have hi : importsOf (Context.children imp) = some .wildcard := by
    rw [h1, importsOf_neither h2, importsOf, if_pos h3]
  have hkind : p.tree.kind = .colon := by rw [hp]; rfl
  unfold completeImports
  have e1 : onColon p cursor = none := by
    unfold onColon
    rw [if_pos hkind, Context.child_parent hc, Option.bind_some, if_pos hk, hi]
  rw [e1, behind_none hc hl]
  simp only
  unfold onComma inPath
  rw [if_neg (by rw [hkind]; decide), if_neg (by rw [hkind]; decide)]

/-- **C178.** Behind a list, with blanks and comments in between but on the same line, a new item is completed at the cursor. -/
theorem behind {imp items src p par : Place} {paths : List (List Text)} {l bs r : List Tree} (h : ListOf imp items src paths)
    (hc : Child par (l ++ imp.tree :: bs) p r) (hup : imp.up = ⟨par.tree.kind, l, bs ++ p.tree :: r⟩ :: par.up)
    (hb : ∀ b ∈ bs, trivia b.kind = true) (hk : p.tree.kind ≠ .colon) (text : Text) (cursor : Nat)
    (hline : ∀ i, imp.offset ≤ i → i < cursor → text[i]? ≠ some '\n') :
    completeImports text p cursor = some ⟨some cursor, paths, [], src, [], []⟩ := by
  obtain ⟨h1, h2, h3, h4, -⟩ := list_facts h
  have hs : p.prevSibling = some imp := by
    obtain ⟨n, e1, e2, e3⟩ := Context.prevSibling_child hc (by rw [h4]; rfl) hb
    rw [e1]
    have := Context.child_up e3
    obtain ⟨t, up⟩ := n
    obtain ⟨ti, upi⟩ := imp
    simp only at e2 this hup
    rw [e2, this, hup]
  have hn : ((text.drop imp.offset).take (cursor - imp.offset)).contains '\n' = false := by
    rw [← Bool.not_eq_true, List.contains_iff_mem]
    intro hm
    obtain ⟨i, hi⟩ := List.mem_iff_getElem?.mp hm
    rw [List.getElem?_take] at hi
    split at hi
    · rw [List.getElem?_drop] at hi
      exact hline (imp.offset + i) (by omega) (by omega) hi
    · cases hi
  unfold completeImports
  have e1 : onColon p cursor = none := by
    unfold onColon
    rw [if_neg hk]
  rw [e1]
  simp only
  unfold behindList
  rw [hs, Option.bind_some, if_pos h4, hn, h1]
  simp [h2]

/-- **C178, violated.** On a name of an item that gets a new name, nothing is completed. -/
theorem renamed_none {ren path p : Place} {l r rest : List Tree} {il : List Tree} {n : Text} (hr : ren.tree.kind = .renamedImportItem)
    (hi : Child ren il path rest) (hk : path.tree.kind = .importItemPath) (hc : Child path l p r) (hp : p.tree = .leaf .ident n)
    (hl : ∀ x ∈ l, x.kind ≠ .moduleImport) (text : Text) (cursor : Nat) : completeImports text p cursor = none := by
  have hkind : p.tree.kind = .ident := by rw [hp]; rfl
  unfold completeImports
  have e1 : onColon p cursor = none := by
    unfold onColon
    rw [if_neg (by rw [hkind]; decide)]
  have e2 : onComma p = none := by
    unfold onComma
    rw [if_neg (by rw [hkind]; decide)]
  rw [e1, behind_none hc hl, e2]
  simp only
  unfold inPath
  rw [if_pos (.inl hkind), Context.child_parent hc, Option.bind_some, if_pos hk, Context.child_parent hi, Option.bind_some]
  have e3 : importAround ren = none := by
    unfold importAround
    rw [if_neg (by rw [hr]; decide)]
  rw [e3]
  rfl

/-! ## What is offered -/

/-- **C178.** Offered is what the path before the cursor leads to, in the order of the module, without what an item of the import imports; and
everything at once, if there are no items.
Missing: the name at the cursor itself, which counts as imported, and items that get a new name. -/
theorem offers_partial {scope : Place → List Text → Option (List Text)} {text : Text} {leaf : Place} {cursor : Nat} {hit : Hit}
    (h : completeImports text leaf cursor = some hit) :
    ∃ l, offered scope text leaf cursor = some l ∧ Offers (scope hit.source hit.path) hit.items hit.path l := by
  refine ⟨_, by unfold offered; rw [h]; rfl, ?_⟩
  simp only [Complete.import_offered]
  unfold Offers
  cases scope hit.source hit.path with
  | none => rfl
  | some names => exact ⟨_, rfl, List.filter_sublist, fun n => by simp⟩

/-- **C178, violated.** A name that is written out is no longer offered at the cursor behind it, although no other item imports it. -/
theorem own_left_out {scope : Place → List Text → Option (List Text)} {imp items src path p : Place} {paths : List (List Text)}
    {l r il ir : List Tree} {n : Text} {ns all : List Text} (h : ListOf imp items src paths) (hi : Child items il path ir)
    (hk : path.tree.kind = .importItemPath) (hc : Child path l p r) (hp : p.tree = .leaf .ident n) (hl : ∀ x ∈ l, x.kind ≠ .moduleImport)
    (hn : Idents l ns) (hr : Idents r []) (hs : scope src ns = some all) (text : Text) (cursor : Nat) :
    ∃ o, offered scope text p cursor = some o ∧ n ∉ o := by
  have hon := on_name h hi hk hc hp hl hn text cursor
  obtain ⟨o, ho, hoff⟩ := offers_partial (scope := scope) hon
  refine ⟨o, ho, ?_⟩
  have hmem : ns ++ [n] ∈ paths := by
    obtain ⟨pt, pu⟩ := p
    simp only at hp
    subst hp
    cases hc with
    | @mk k _ _ _ up =>
      simp only [Tree.kind] at hk
      subst hk
      cases h with
      | @mk pre mid post is s up' paths h1 h2 h3 h4 h5 =>
        have hid : Idents (l ++ .leaf .ident n :: r) (ns ++ [n]) := by
          have : ∀ {l : List Tree} {ns : List Text}, Idents l ns → Idents (l ++ .leaf .ident n :: r) (ns ++ [n]) := by
            intro l ns hx
            induction hx with
            | nil => exact .name hr
            | name _ ih => exact .name ih
            | skip hk _ ih => exact .skip hk ih
          exact this hn
        have he : is = il ++ .inner .importItemPath (l ++ .leaf .ident n :: r) :: ir := by
          generalize hq : (⟨.inner .importItemPath (l ++ .leaf .ident n :: r), up⟩ : Place) = q at hi
          generalize hz : (⟨.inner .importItems is, ⟨.moduleImport, pre ++ s :: mid, post⟩ :: up'⟩ : Place) = z at hi
          cases hi with
          | mk =>
            cases hq
            cases hz
            rfl
        exact items_mem h5 he hid
  unfold Offers at hoff
  simp only [hs] at hoff
  obtain ⟨rest, h1, -, h3⟩ := hoff
  have hne : paths ≠ [] := by rintro rfl; cases hmem
  rw [h1, if_neg hne, List.nil_append, h3]
  rintro ⟨-, h⟩
  exact h hmem

/-! ## The hypotheses are met -/

/-- `import "m": a.b, c as d` -/
def exItems : List Tree := [.inner .importItemPath [.leaf .ident ['a'], .leaf .dot ['.'], .leaf .ident ['b']], .leaf .comma [','], .leaf .space [' '],
  .inner .renamedImportItem [.inner .importItemPath [.leaf .ident ['c']], .leaf .space [' '], .leaf .asKw ['a', 's'], .leaf .space [' '], .leaf .ident ['d']]]

example : Items exItems [[['a'], ['b']], [['c']]] :=
  .plain (.name (.skip (by simp [Tree.kind]) (.name .nil))) (.skip (by simp [Tree.kind]) (.skip (by simp [Tree.kind]) (.renamed (.name .nil) .nil)))

example : ListOf ⟨.inner .moduleImport ([.leaf .importKw ['i'], .leaf .space [' ']] ++ .leaf .str ['"', 'm', '"'] ::
      ([.leaf .colon [':'], .leaf .space [' ']] ++ .inner .importItems exItems :: [])), []⟩ ⟨.inner .importItems exItems,
      [⟨.moduleImport, [.leaf .importKw ['i'], .leaf .space [' ']] ++ .leaf .str ['"', 'm', '"'] :: [.leaf .colon [':'], .leaf .space [' ']], []⟩]⟩
    ⟨.leaf .str ['"', 'm', '"'], [⟨.moduleImport, [.leaf .importKw ['i'], .leaf .space [' ']],
      [.leaf .colon [':'], .leaf .space [' ']] ++ .inner .importItems exItems :: []⟩]⟩ [[['a'], ['b']], [['c']]] := by
  refine .mk ?_ ?_ rfl ?_ (.plain (.name (.skip (by simp [Tree.kind]) (.name .nil))) (.skip (by simp [Tree.kind]) (.skip (by simp [Tree.kind])
    (.renamed (.name .nil) .nil))))
  · simp [Neither, Tree.kind]
  · simp [Tree.kind, isExpr]
  · simp [Neither, Tree.kind]

end Tinymist.ImportCursor
