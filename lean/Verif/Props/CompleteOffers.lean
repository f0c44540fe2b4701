import Verif.Spec.CompleteMore
import Verif.Props.CompletePaths

/-!
# Completion of imports, packages and labels

The names offered in the list of an import, the packages offered in the string of an import, and the labels offered for
references and citations.
-/

namespace Tinymist.Complete

/-! ## Strings -/

/-- **A path put into a string is read back as it is**, if it has no quote and no backslash.
Missing: paths with quotes or backslashes, which are not escaped, and relative paths that begin with `@`. -/
theorem path_read_partial (l rest : Text) (h : ∀ c ∈ l, c ≠ '"' ∧ c ≠ '\\') : readString (l ++ '"' :: rest) = some (l, rest) := by
  induction l with
  | nil => rfl
  | cons c l ih =>
    obtain ⟨h1, h2⟩ := h c (List.mem_cons_self ..)
    rw [List.cons_append, readString.eq_def]
    split
    · contradiction
    · simp_all
    · simp_all
    · simp_all
    · simp_all
    · simp_all
    · rename_i heq
      obtain ⟨rfl, rfl⟩ := List.cons.inj heq
      rw [ih fun c hc => h c (List.mem_cons_of_mem _ hc)]
      rfl

/-- **Otherwise it is not**: the file `a"b.typ` is offered by its name, and the string ends in it. -/
theorem path_broken :
    completePath [["a\"b".toList]] [] "m".toList false [] 3 3 =
      some [⟨"a\"b".toList, some ['0'], ⟨3, 3, "\"a\"b\"".toList⟩, []⟩] ∧
    readString "a\"b\"".toList = some (['a'], "b\"".toList) := by
  constructor <;> decide +kernel

/-- **A field with a strange name is reached by `at`.** For a field whose name is no identifier, and has no quote and no
backslash in it, the call `at` is inserted, and the string that is its argument is read as the name of the field.
(Missing: names with quotes or backslashes, see `field_quote_broken`.) -/
theorem field_named_partial (c : Cursor) (label : Text) (h : ∀ x ∈ label, x ≠ '"' ∧ x ≠ '\\') :
    ∃ body, valueApply c true false label = some ('a' :: 't' :: '(' :: '"' :: body) ∧
      readString body = some (label, [')']) := by
  refine ⟨label ++ '"' :: [')'], ?_, path_read_partial label [')'] h⟩
  unfold valueApply
  rw [if_pos ⟨rfl, by simp⟩, List.append_assoc]
  rfl

/-- Non-vacuity: the field `a b` is reached by `at("a b")`. -/
example (c : Cursor) : valueApply c true false "a b".toList = some "at(\"a b\")".toList := by
  unfold valueApply; rw [if_pos ⟨rfl, by simp⟩]; rfl

/-- **With a quote in it, it is not**: for the field `a"b`, `at("a"b")` is inserted, and its string is `a`. -/
theorem field_quote_broken (c : Cursor) :
    valueApply c true false "a\"b".toList = some ('a' :: 't' :: '(' :: '"' :: "a\"b\")".toList) ∧
    readString "a\"b\")".toList = some (['a'], "b\")".toList) := by
  refine ⟨?_, by decide +kernel⟩
  unfold valueApply; rw [if_pos ⟨rfl, by simp⟩]; rfl

/-- **A file whose name begins with `@` is offered as a package**: the text for the file `@a/b` in the root begins with `@`,
which an import reads as the specification of a package. -/
theorem path_package :
    completePath [["@a".toList, "b".toList]] [] "m".toList true [] 3 3 =
      some [⟨"@a/b".toList, some ['0'], ⟨3, 3, "@a/b".toList⟩, []⟩] := by decide +kernel

/-! ## Imports -/

/-- **What can be imported.** In an import of a module, behind the names `comps` of modules in it, every name of the module
they lead to is offered that is not yet imported from there, in the order of the module, and before them `*` if nothing is
imported yet. -/
theorem import_offered (scope : List Text → Option (List Text)) (existing : List (List Text)) (comps : List Text) :
    importItems scope existing comps =
      match scope comps with
      | none => []
      | some names => (if existing = [] then [['*']] else []) ++ names.filter fun n => comps ++ [n] ∉ existing := by
  unfold importItems
  cases scope comps with
  | none => rfl
  | some names =>
    dsimp only
    congr 1
    · cases existing <;> rfl
    · apply List.filter_congr
      intro n _
      rw [Bool.eq_iff_iff, List.all_eq_true]
      simp only [bne_iff_ne, decide_eq_true_eq]
      have key : ∀ item : List Text, (item.length = comps.length + 1 ∧ (item.zip comps).all (fun p => p.1 == p.2) = true ∧
          item.getLast? = some n) ↔ item = comps ++ [n] := by
        intro item
        constructor
        · rintro ⟨h1, h2, h3⟩
          rcases List.eq_nil_or_concat item with rfl | ⟨l, x, rfl⟩
          · simp at h3
          · simp only [List.concat_eq_append, List.getLast?_append, List.getLast?_singleton, Option.some_or,
              Option.some.injEq] at h3
            subst h3
            simp only [List.concat_eq_append, List.length_append, List.length_singleton, Nat.add_right_cancel_iff] at h1
            rw [List.concat_eq_append]
            congr 1
            rw [List.concat_eq_append, List.all_eq_true] at h2
            apply List.ext_getElem h1
            intro i hi hj
            have := h2 (l[i], comps[i]) (by
              rw [List.mem_iff_getElem]
              refine ⟨i, by simp; omega, ?_⟩
              simp [List.getElem_zip, hi])
            simpa using this
        · rintro rfl
          refine ⟨by simp, ?_, by simp⟩
          rw [List.all_eq_true]
          intro p hp
          rw [List.mem_iff_getElem] at hp
          obtain ⟨i, hi, rfl⟩ := hp
          have : i < comps.length := by simp at hi; omega
          simp [List.getElem_zip, this]
      constructor
      · intro h hm
        obtain ⟨h1, h2, h3⟩ := (key _).mpr rfl
        exact h n (List.mem_flatMap.mpr ⟨_, hm, by rw [if_pos ⟨h1, h2⟩, h3]; simp⟩) rfl
      · rintro h x hx rfl
        obtain ⟨item, hi, hx⟩ := List.mem_flatMap.mp hx
        split at hx
        · rename_i hc
          have hx : item.getLast? = some x := by
            cases hg : item.getLast? with
            | none => simp [hg] at hx
            | some y => simp [hg] at hx; rw [hx]
          rw [(key item).mp ⟨hc.1, hc.2, hx⟩] at hi
          exact h hi
        · simp at hx

/-- **The name at the cursor counts as imported**: with `import m: ab` and the cursor behind `ab`, neither `*` nor `ab` is
offered. -/
theorem import_self :
    importItems (fun _ => some ["ab".toList, "abc".toList]) [["ab".toList]] [] = ["abc".toList] := by decide +kernel

/-! ## Packages -/

/-- The order of packages: by namespace and name, newer versions first. -/
def PackageBefore (a b : Spec) : Prop :=
  a.ns < b.ns ∨ a.ns = b.ns ∧ (a.name < b.name ∨ a.name = b.name ∧ NotOlder a.version b.version)

theorem specLe_iff (a b : Spec) : specLe a b = true ↔ PackageBefore a b := by
  unfold specLe PackageBefore
  have hle : ∀ x y : Text, x ≠ y → (x ≤ y ↔ x < y) := by
    intro x y hxy
    constructor
    · intro h
      apply Classical.byContradiction
      intro h'
      exact hxy (List.le_antisymm h (List.not_lt.mp h'))
    · exact fun h => List.le_of_lt h
  split
  · rename_i h
    simp [h, hle _ _ h]
  · rename_i h
    have h : a.ns = b.ns := Classical.byContradiction h
    split
    · rename_i h'
      simp [h, h', hle _ _ h', List.lt_irrefl]
    · rename_i h'
      have h' : a.name = b.name := Classical.byContradiction h'
      simp only [h, h', List.lt_irrefl, false_or, true_and, NotOlder, versionLt, Bool.not_eq_true', Bool.or_eq_false_iff,
        decide_eq_false_iff_not, Bool.and_eq_false_imp, beq_iff_eq]
      constructor
      · rintro ⟨h1, h2⟩
        rcases Nat.lt_or_ge b.version.1 a.version.1 with h3 | h3
        · exact .inl h3
        · have h3 : a.version.1 = b.version.1 := by omega
          obtain ⟨h4, h5⟩ := h2 h3
          rcases Nat.lt_or_ge b.version.2.1 a.version.2.1 with h6 | h6
          · exact .inr ⟨h3.symm, .inl h6⟩
          · have h6 : a.version.2.1 = b.version.2.1 := by omega
            have := h5 h6
            exact .inr ⟨h3.symm, .inr ⟨h6.symm, by omega⟩⟩
      · rintro (h1 | ⟨h1, h2 | ⟨h2, h3⟩⟩)
        · exact ⟨by omega, fun h => by omega⟩
        · exact ⟨by omega, fun _ => ⟨by omega, fun h => by omega⟩⟩
        · exact ⟨by omega, fun _ => ⟨by omega, fun _ => by omega⟩⟩

theorem notOlder_trans {a b c : Nat × Nat × Nat} (h1 : NotOlder a b) (h2 : NotOlder b c) : NotOlder a c := by
  unfold NotOlder at *; omega

theorem notOlder_total (a b : Nat × Nat × Nat) : NotOlder a b ∨ NotOlder b a := by
  unfold NotOlder; omega

theorem packageBefore_trans {a b c : Spec} (h1 : PackageBefore a b) (h2 : PackageBefore b c) : PackageBefore a c := by
  unfold PackageBefore at *
  rcases h1 with h1 | ⟨e1, h1⟩ <;> rcases h2 with h2 | ⟨e2, h2⟩
  · exact .inl (List.lt_trans h1 h2)
  · exact .inl (e2 ▸ h1)
  · exact .inl (e1 ▸ h2)
  · refine .inr ⟨e1.trans e2, ?_⟩
    rcases h1 with h1 | ⟨f1, h1⟩ <;> rcases h2 with h2 | ⟨f2, h2⟩
    · exact .inl (List.lt_trans h1 h2)
    · exact .inl (f2 ▸ h1)
    · exact .inl (f1 ▸ h2)
    · exact .inr ⟨f1.trans f2, notOlder_trans h1 h2⟩

theorem text_trichotomy (a b : Text) : a < b ∨ a = b ∨ b < a := by
  by_cases h1 : a < b
  · exact .inl h1
  · by_cases h2 : b < a
    · exact .inr (.inr h2)
    · exact .inr (.inl (List.le_antisymm (List.not_lt.mp h2) (List.not_lt.mp h1)))

theorem packageBefore_total (a b : Spec) : PackageBefore a b ∨ PackageBefore b a := by
  unfold PackageBefore
  rcases text_trichotomy a.ns b.ns with h | h | h
  · exact .inl (.inl h)
  · rcases text_trichotomy a.name b.name with h' | h' | h'
    · exact .inl (.inr ⟨h, .inl h'⟩)
    · rcases notOlder_total a.version b.version with h'' | h''
      · exact .inl (.inr ⟨h, .inr ⟨h', h''⟩⟩)
      · exact .inr (.inr ⟨h.symm, .inr ⟨h'.symm, h''⟩⟩)
    · exact .inr (.inr ⟨h.symm, .inl h'⟩)
  · exact .inr (.inl h)

theorem packages_sorted (l : List Spec) : (l.mergeSort specLe).Pairwise PackageBefore :=
  sorted_by (fun a _ b _ => specLe_iff a b) (fun _ _ _ => packageBefore_trans) packageBefore_total

/-- **All versions**: for a version, every package of the registry and of the local folders is offered as often as it is
there, by namespace and name, newer versions first.
Missing: that a package both in the registry and in a local folder is listed once. -/
theorem all_versions_partial (registry locals : List Spec) :
    (packageList registry locals true).Perm (registry ++ locals) ∧
      (packageList registry locals true).Pairwise PackageBefore :=
  ⟨List.mergeSort_perm _ _, packages_sorted _⟩

theorem dedupKey_spec (l : List Spec) (hs : l.Pairwise PackageBefore) :
    (dedupKey l).Sublist l ∧ (dedupKey l).head? = l.head? ∧
    (dedupKey l).Pairwise (fun a b => a.ns < b.ns ∨ a.ns = b.ns ∧ a.name < b.name) ∧
    ∀ p ∈ l, ∃ q ∈ dedupKey l, q.ns = p.ns ∧ q.name = p.name ∧ NotOlder q.version p.version := by
  have refl : ∀ v : Nat × Nat × Nat, NotOlder v v := fun v => (notOlder_total v v).elim id id
  fun_induction dedupKey l with
  | case1 => simp
  | case2 a => simp [refl]
  | case3 a b rest h ih =>
    simp only [Prod.mk.injEq] at h
    obtain ⟨h1, h2⟩ := List.pairwise_cons.mp hs
    obtain ⟨h3, h4⟩ := List.pairwise_cons.mp h2
    obtain ⟨i1, i2, i3, i4⟩ := ih (List.pairwise_cons.mpr ⟨fun x hx => h1 x (List.mem_cons_of_mem _ hx), h4⟩)
    refine ⟨i1.trans ((List.sublist_cons_self b rest).cons_cons a), by simpa using i2, i3, ?_⟩
    intro p hp
    rcases List.mem_cons.mp hp with rfl | hp
    · exact i4 _ (List.mem_cons_self ..)
    · rcases List.mem_cons.mp hp with rfl | hp
      · obtain ⟨q, hq, e1, e2, e3⟩ := i4 a (List.mem_cons_self ..)
        refine ⟨q, hq, e1.trans h.1, e2.trans h.2, notOlder_trans e3 ?_⟩
        rcases h1 p (List.mem_cons_self ..) with h' | ⟨-, h' | ⟨-, h'⟩⟩
        · exact absurd h' (h.1 ▸ List.lt_irrefl _)
        · exact absurd h' (h.2 ▸ List.lt_irrefl _)
        · exact h'
      · exact i4 p (List.mem_cons_of_mem _ hp)
  | case4 a b rest h ih =>
    simp only [Prod.mk.injEq] at h
    obtain ⟨h1, h2⟩ := List.pairwise_cons.mp hs
    obtain ⟨i1, i2, i3, i4⟩ := ih h2
    refine ⟨i1.cons_cons a, rfl, ?_, ?_⟩
    · have hab : a.ns < b.ns ∨ a.ns = b.ns ∧ a.name < b.name := by
        rcases h1 b (List.mem_cons_self ..) with h' | ⟨e, h' | ⟨e', -⟩⟩
        · exact .inl h'
        · exact .inr ⟨e, h'⟩
        · exact absurd ⟨e, e'⟩ h
      refine List.pairwise_cons.mpr ⟨?_, i3⟩
      intro x hx
      have hbx : PackageBefore b x ∨ x = b := by
        rcases List.mem_cons.mp (i1.subset hx) with rfl | hx
        · exact .inr rfl
        · exact .inl ((List.pairwise_cons.mp h2).1 x hx)
      rcases hbx with hbx | rfl
      · rcases hab with hab | ⟨e, hab⟩
        · rcases hbx with hb | ⟨eb, -⟩
          · exact .inl (List.lt_trans hab hb)
          · exact .inl (eb ▸ hab)
        · rcases hbx with hb | ⟨eb, hb⟩
          · exact .inl (e ▸ hb)
          · refine .inr ⟨e.trans eb, ?_⟩
            rcases hb with hb | ⟨eb', -⟩
            · exact List.lt_trans hab hb
            · exact eb' ▸ hab
      · exact hab
    · intro p hp
      rcases List.mem_cons.mp hp with rfl | hp
      · exact ⟨_, List.mem_cons_self .., rfl, rfl, refl _⟩
      · obtain ⟨q, hq, hh⟩ := i4 p hp
        exact ⟨q, List.mem_cons_of_mem _ hq, hh⟩

/-- **One version**: otherwise every package is offered once, in its newest version, by namespace and name. -/
theorem newest_versions (registry locals : List Spec) :
    (∀ q ∈ packageList registry locals false, (q ∈ registry ∨ q ∈ locals) ∧
      ∀ p, p ∈ registry ∨ p ∈ locals → p.ns = q.ns → p.name = q.name → NotOlder q.version p.version) ∧
    (∀ p, p ∈ registry ∨ p ∈ locals → ∃ q ∈ packageList registry locals false, q.ns = p.ns ∧ q.name = p.name) ∧
    (packageList registry locals false).Pairwise (fun a b => a.ns < b.ns ∨ a.ns = b.ns ∧ a.name < b.name) := by
  have e : packageList registry locals false = dedupKey ((registry ++ locals).mergeSort specLe) := rfl
  rw [e]
  obtain ⟨h1, -, h3, h4⟩ := dedupKey_spec _ (packages_sorted (registry ++ locals))
  have hmem : ∀ p, p ∈ (registry ++ locals).mergeSort specLe ↔ p ∈ registry ∨ p ∈ locals := by
    intro p; rw [List.mem_mergeSort, List.mem_append]
  refine ⟨?_, ?_, h3⟩
  · intro q hq
    refine ⟨(hmem q).mp (h1.subset hq), ?_⟩
    intro p hp en em
    obtain ⟨q', hq', e1, e2, e3⟩ := h4 p ((hmem p).mpr hp)
    have : q' = q := by
      rw [List.pairwise_iff_getElem] at h3
      obtain ⟨i, hi, rfl⟩ := List.mem_iff_getElem.mp hq'
      obtain ⟨j, hj, rfl⟩ := List.mem_iff_getElem.mp hq
      rcases Nat.lt_trichotomy i j with h | h | h
      · rcases h3 i j hi hj h with h | ⟨-, h⟩
        · exact absurd h ((e1.trans en) ▸ List.lt_irrefl _)
        · exact absurd h ((e2.trans em) ▸ List.lt_irrefl _)
      · subst h; rfl
      · rcases h3 j i hj hi h with h | ⟨-, h⟩
        · exact absurd h ((e1.trans en) ▸ List.lt_irrefl _)
        · exact absurd h ((e2.trans em) ▸ List.lt_irrefl _)
    exact this ▸ e3
  · intro p hp
    obtain ⟨q, hq, e1, e2, -⟩ := h4 p ((hmem p).mpr hp)
    exact ⟨q, hq, e1, e2⟩

/-- **With all versions, a package that is in the registry and in a local folder is offered twice.** -/
theorem listed_twice (registry locals : List Spec) (p : Spec) (h1 : p ∈ registry) (h2 : p ∈ locals) :
    2 ≤ (packageList registry locals true).count p := by
  rw [(all_versions_partial registry locals).1.count_eq, List.count_append]
  have := List.count_pos_iff.mpr h1
  have := List.count_pos_iff.mpr h2
  omega

example :
    packageList [⟨['a'], ['b'], 0, 10, 0⟩, ⟨['a'], ['b'], 0, 9, 0⟩, ⟨['a'], ['c'], 0, 9, 0⟩] [⟨['b'], ['a'], 0, 1, 0⟩] false =
      [⟨['a'], ['b'], 0, 10, 0⟩, ⟨['a'], ['c'], 0, 9, 0⟩, ⟨['b'], ['a'], 0, 1, 0⟩] := by
  rw [packageList, List.mergeSort_of_pairwise (by decide +kernel)]
  simp [dedupKey]

/-! ## Labels -/

theorem labelLoop_cons (seen : List Text) (l : Text) (title : Option Text) (rest : List (Text × Option Text)) :
    labelLoop seen ((l, title) :: rest) = if seen.contains l then labelLoop seen rest
      else (match title with | some t => [.title t l] | none => []) ++ .label l :: labelLoop (l :: seen) rest := rfl

theorem labelLoop_label (seen : List Text) (labels : List (Text × Option Text)) (l : Text) :
    (labelLoop seen labels).count (.label l) = if l ∈ labels.map (·.1) ∧ l ∉ seen then 1 else 0 := by
  induction labels generalizing seen with
  | nil => simp [labelLoop]
  | cons p rest ih =>
    obtain ⟨a, t⟩ := p
    rw [labelLoop_cons]
    split
    · rename_i h
      have h : a ∈ seen := by simpa using h
      rw [ih]
      by_cases ha : l = a
      · subst ha
        rw [if_neg fun x => x.2 h, if_neg fun x => x.2 h]
      · simp only [List.map_cons, List.mem_cons, ha, false_or]
    · rename_i h
      have h : a ∉ seen := by simpa using h
      have h0 : (match t with | some t => [Offer.title t a] | none => []).count (Offer.label l) = 0 := by
        cases t <;> simp
      rw [List.count_append, h0, List.count_cons, ih]
      by_cases ha : l = a
      · subst ha; simp [h]
      · have ha' : ¬a = l := fun h => ha h.symm
        simp only [List.map_cons, List.mem_cons, ha, false_or, beq_iff_eq, Offer.label.injEq, ha', if_false, Nat.zero_add, Nat.add_zero]

theorem labelLoop_title (seen : List Text) (labels : List (Text × Option Text)) (l t : Text) :
    (labelLoop seen labels).count (.title t l) = if labels.lookup l = some (some t) ∧ l ∉ seen then 1 else 0 := by
  induction labels generalizing seen with
  | nil => simp [labelLoop]
  | cons p rest ih =>
    obtain ⟨a, u⟩ := p
    rw [labelLoop_cons]
    split
    · rename_i h
      have h : a ∈ seen := by simpa using h
      rw [ih]
      by_cases ha : l = a
      · subst ha; simp [h]
      · have : (l == a) = false := by simpa using ha
        simp [List.lookup_cons, this]
    · rename_i h
      have h : a ∉ seen := by simpa using h
      rw [List.count_append, List.count_cons, ih]
      by_cases ha : l = a
      · subst ha
        cases u with
        | none => simp [h]
        | some u =>
          by_cases hu : u = t
          · subst hu; simp [h]
          · simp [h, hu]
      · have ha' : ¬a = l := fun h => ha h.symm
        have : (l == a) = false := by simpa using ha
        cases u <;> simp [List.lookup_cons, this, ha, ha']

/-- **The labels that are offered.** With the labels `els` of elements and `bib` of the works of the bibliographies: behind
an `@` and in a call of `ref` all of them, for a citation those of works, otherwise those of elements, each of them once;
and the title of a work too, once, if the first use of its label is the work. -/
theorem labels_offered (els bib : List (Text × Option Text)) (at_ cite ref : Bool) :
    let chosen := if at_ ∨ ref then els ++ bib else if cite then bib else els
    (∀ l, (labelList (els ++ bib) els.length at_ cite ref).count (.label l) = if l ∈ chosen.map (·.1) then 1 else 0) ∧
    ∀ l t, (labelList (els ++ bib) els.length at_ cite ref).count (.title t l) =
      if chosen.lookup l = some (some t) then 1 else 0 := by
  intro chosen
  have : labelList (els ++ bib) els.length at_ cite ref = labelLoop [] chosen := by
    unfold labelList
    simp only [List.drop_left, List.take_left, Bool.or_eq_true, chosen]
  rw [this]
  refine ⟨fun l => ?_, fun l t => ?_⟩
  · rw [labelLoop_label]
    simp only [List.not_mem_nil, not_false_eq_true, and_true]
  · rw [labelLoop_title]
    simp only [List.not_mem_nil, not_false_eq_true, and_true]

example : labelList [(['a'], none), (['b'], none), (['k'], some ['T']), (['k'], some ['U'])] 2 true false false =
    [.label ['a'], .label ['b'], .title ['T'] ['k'], .label ['k']] := by decide +kernel

end Tinymist.Complete
