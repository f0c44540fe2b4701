import Verif.Lemmas.References
import Verif.Lemmas.RenameUses
import Verif.Props.Scoping

/-!
# C71: find references; C72: rename

C71: the places reported for a definition are the places which go to definition leads to it
from.  C72: after a rename every name of the project means what it meant before.
-/
namespace Tinymist.Scoping

/-! ## C71 -/

/-- **Every reported place leads to the definition.** -/
theorem references_sound (W : World) (files : List E) (home : File) (d : Decl) (k : File)
    (s : Span) (h : (k, s) ∈ references W files home d) :
    definition W files k s = some (.decl d) :=
  (refsIn_iff W files k d s).mp ((search_inv W files home d).1.2.1 (k, s) h)

/-- The search comes to an end: no file is left to be looked at. -/
theorem search_ends (W : World) (files : List E) (home : File) (d : Decl) :
    (search W files home d).worklist = [] := (search_inv W files home d).2

theorem indexed_of_mem (W : World) (d : Decl) (e : E) (h : d.name W ∈ identifiers e) :
    indexed W d e = true := by
  rw [indexed.eq_def]
  split <;> simp [h]

/-- What is exported under the name of the definition is the definition. -/
theorem exported_iff (W : World) (files : List E) (hp : PlainProject W files) (k : File) (d : Decl)
    (hd : d.name W ≠ 0) : isExported W (exportsOf (exportsAll W files) k) d = true ↔
      exportEnv (exportEnvs W files) k (d.name W) = some (.decl d) := by
  rw [← project_exports W files hp k (d.name W) hd, isExported]
  cases (exportsOf (exportsAll W files) k).lookup (d.name W) with
  | none => simp [meaningOf]
  | some x =>
    cases x with
    | decl d' => simp [meaningOf]
    | other => simp [meaningOf]
    | ref r =>
      obtain ⟨x, y, z⟩ := r
      cases y with
      | none => simp [meaningOf]
      | some t => cases t <;> simp [meaningOf]

theorem reached_done (W : World) (files : List E) (hp : PlainProject W files) (home : File)
    (d : Decl) (hd : d.name W ≠ 0) (k : File)
    (h : Reached W files home d k) : k = home ∨ k ∈ (search W files home d).searched := by
  induction h with
  | home => exact .inl rfl
  | step k j e e' _ he hid hex he' hj ih =>
    have hw := search_ends W files home d
    have hc := (search_inv W files home d).1.2.2 k (by
      rcases ih with h | h
      · exact .inl h
      · exact .inr ⟨h, by rw [hw]; simp⟩) e he
    obtain ⟨-, h2⟩ := hc (indexed_of_mem W d e hid)
    exact .inr (h2 ((exported_iff W files hp k d hd).mpr hex) j
      ((mem_dependents files k j).mpr ⟨e', he', hj⟩))

/-- **Every place leading to the definition is reported**, if it is in a file which the
definition gets to by imports and exports under its own name.  The full claim, without `hr`,
is false: see `facade_hides` and `alias_hides`. -/
theorem references_complete_partial (W : World) (files : List E) (hp : PlainProject W files)
    (home : File) (d : Decl) (hd : d.name W ≠ 0)
    (k : File) (e : E) (s : Span) (hr : Reached W files home d k) (he : files[k]? = some e)
    (hi : d.name W ∈ identifiers e) (h : definition W files k s = some (.decl d)) :
    (k, s) ∈ references W files home d := by
  have hw := search_ends W files home d
  have hc := (search_inv W files home d).1.2.2 k (by
    rcases reached_done W files hp home d hd k hr with h | h
    · exact .inl h
    · exact .inr ⟨h, by rw [hw]; simp⟩) e he
  exact (hc (indexed_of_mem W d e hi)).1 s ((refsIn_iff W files k d s).mpr h)

/-- In the file of the definition nothing is missed, in any project. -/
theorem own_file_complete (W : World) (files : List E) (home : File) (d : Decl) (e : E)
    (s : Span) (he : files[home]? = some e) (hi : d.name W ∈ identifiers e)
    (h : definition W files home s = some (.decl d)) :
    (home, s) ∈ references W files home d := by
  have hw := search_ends W files home d
  have hc := (search_inv W files home d).1.2.2 home (.inl rfl) e he
  exact (hc (indexed_of_mem W d e hi)).1 s ((refsIn_iff W files home d s).mpr h)

/-- Nor in a file importing the file of the definition, where the name is written. -/
theorem importer_complete (W : World) (files : List E) (hp : PlainProject W files) (home : File)
    (d : Decl) (hd : d.name W ≠ 0) (e0 : E)
    (k : File) (e : E) (s : Span) (he0 : files[home]? = some e0) (hi0 : d.name W ∈ identifiers e0)
    (hex : exportEnv (exportEnvs W files) home (d.name W) = some (.decl d))
    (he : files[k]? = some e) (hk : home ∈ importsOf e) (hi : d.name W ∈ identifiers e)
    (h : definition W files k s = some (.decl d)) :
    (k, s) ∈ references W files home d :=
  references_complete_partial W files hp home d hd k e s
    (.step home k e0 e .home he0 hi0 hex he hk) he hi h

/-- By the scoping rules: the reported places of a file are those where the name means the
definition. -/
theorem references_follow_rules_partial (W : World) (files : List E) (home : File) (d : Decl)
    (hd : d.name W ≠ 0) (hp : PlainProject W files) (k : File) (e : E) (he : files[k]? = some e)
    (hc : ∀ x ∈ placesOf W files k, ∀ y ∈ placesOf W files k, x.1 = y.1 → x = y)
    (hr : Reached W files home d k) (hi : d.name W ∈ identifiers e) (s : Span) :
    (k, s) ∈ references W files home d ↔ (s, some (.decl d)) ∈ placesOf W files k := by
  constructor
  · intro h
    have hd := references_sound W files home d k s h
    by_cases hs : s ∈ (placesOf W files k).map (·.1)
    · obtain ⟨⟨s', m⟩, hm, rfl⟩ := List.mem_map.mp hs
      have := definition_follows_rules_partial W files hp k hc s' m hm
      simp only at hd
      rw [hd] at this
      cases m with
      | none => cases this
      | some m =>
        cases m with
        | decl d' =>
          simp only [Option.bind_some, Meaning.answer, Option.some.injEq, Ans.decl.injEq] at this
          subst this
          exact hm
        | value v => cases this
        | unknown => cases this
    · rw [no_definition_elsewhere_partial W files hp k s hs] at hd
      cases hd
  · intro h
    exact references_complete_partial W files hp home d hd k e s hr he hi
      (definition_follows_rules_partial W files hp k hc s _ h)

/-! ### No place is reported twice -/

structure Search.Once (home : File) (st : Search) : Prop where
  nodup : st.out.Nodup
  visited : ∀ x ∈ st.out, x.1 = home ∨ (x.1 ∈ st.searched ∧ x.1 ∉ st.worklist)
  later : ∀ j ∈ st.searched, home < j

theorem visit_out (W : World) (files : List E) (d : Decl) (k : File) (st : Search) :
    (visit W files d k st).out = st.out ∨ (visit W files d k st).out =
      st.out ++ (refsIn d (tableOf W files k)).map (fun s => (k, s)) := by
  have hpush : ∀ (l : List File) (st : Search), (st.pushAll l).out = st.out := by
    intro l
    induction l with
    | nil => intro st; rfl
    | cons k l ih =>
      intro st
      rw [Search.pushAll, ih, Search.push]
      split <;> rfl
  rw [visit]
  split
  · exact .inl rfl
  · split
    · simp only
      split
      · rw [hpush]; exact .inr rfl
      · exact .inr rfl
    · exact .inl rfl

theorem visit_searched (W : World) (files : List E) (d : Decl) (k : File) (st : Search) :
    (∀ j ∈ (visit W files d k st).searched, j ∈ st.searched ∨ j ∈ dependents files k) ∧
      (∀ j ∈ st.searched, j ∈ (visit W files d k st).searched) ∧
      (∀ j ∈ (visit W files d k st).worklist, j ∈ st.worklist ∨ j ∉ st.searched) := by
  have hpush : ∀ (l : List File) (st : Search),
      (∀ j ∈ (st.pushAll l).searched, j ∈ st.searched ∨ j ∈ l) ∧
      (∀ j ∈ st.searched, j ∈ (st.pushAll l).searched) ∧
      (∀ j ∈ (st.pushAll l).worklist, j ∈ st.worklist ∨ j ∉ st.searched) := by
    intro l
    induction l with
    | nil => intro st; exact ⟨fun j h => .inl h, fun j h => h, fun j h => .inl h⟩
    | cons k l ih =>
      intro st
      rw [Search.pushAll]
      obtain ⟨i1, i2, i3⟩ := ih (st.push k)
      have hp : (∀ j ∈ (st.push k).searched, j ∈ st.searched ∨ j = k) ∧
          (∀ j ∈ st.searched, j ∈ (st.push k).searched) ∧
          (∀ j ∈ (st.push k).worklist, j ∈ st.worklist ∨ j ∉ st.searched) := by
        rw [Search.push]
        split
        · exact ⟨fun j h => .inl h, fun j h => h, fun j h => .inl h⟩
        · rename_i hk
          refine ⟨fun j h => by simpa using h, fun j h => by simp [h], fun j h => ?_⟩
          simp only [List.mem_append, List.mem_singleton] at h
          rcases h with h | rfl
          · exact .inl h
          · exact .inr (by simpa using hk)
      obtain ⟨p1, p2, p3⟩ := hp
      refine ⟨fun j h => ?_, fun j h => i2 j (p2 j h), fun j h => ?_⟩
      · rcases i1 j h with h | h
        · rcases p1 j h with h | h
          · exact .inl h
          · exact .inr (by simp [h])
        · exact .inr (by simp [h])
      · rcases i3 j h with h | h
        · exact p3 j h
        · exact .inr (fun hs => h (p2 j hs))
  rw [visit]
  split
  · exact ⟨fun j h => .inl h, fun j h => h, fun j h => .inl h⟩
  · split
    · simp only
      split
      · exact hpush _ _
      · exact ⟨fun j h => .inl h, fun j h => h, fun j h => .inl h⟩
    · exact ⟨fun j h => .inl h, fun j h => h, fun j h => .inl h⟩

theorem visit_once (W : World) (files : List E) (home : File) (d : Decl) (ho : Ordered files)
    (k : File) (st : Search) (hk : home ≤ k) (h : st.Once home)
    (hkv : k = home ∧ st.out = [] ∨ home < k ∧ k ∈ st.searched ∧ k ∉ st.worklist ∧
      ∀ x ∈ st.out, x.1 ≠ k) : (visit W files d k st).Once home := by
  obtain ⟨s1, s2, s3⟩ := visit_searched W files d k st
  have hnew : ∀ x ∈ (visit W files d k st).out, x ∈ st.out ∨ x.1 = k := by
    intro x hx
    rcases visit_out W files d k st with e | e
    · rw [e] at hx; exact .inl hx
    · rw [e] at hx
      rcases List.mem_append.mp hx with hx | hx
      · exact .inl hx
      · obtain ⟨s, _, rfl⟩ := List.mem_map.mp hx
        exact .inr rfl
  constructor
  · rcases visit_out W files d k st with e | e
    · rw [e]; exact h.nodup
    · rw [e, List.nodup_append]
      refine ⟨h.nodup, ?_, ?_⟩
      · rw [List.nodup_iff_pairwise_ne, List.pairwise_map]
        exact (nodup_refsIn d _).imp (fun hne e => hne (by cases e; rfl))
      · rintro a ha b hb rfl
        obtain ⟨s, _, rfl⟩ := List.mem_map.mp hb
        rcases hkv with ⟨_, h0⟩ | ⟨_, _, _, h3⟩
        · rw [h0] at ha; cases ha
        · exact h3 _ ha rfl
  · intro x hx
    rcases hnew x hx with hx | hx
    · rcases h.visited x hx with hv | ⟨hv, hw⟩
      · exact .inl hv
      · refine .inr ⟨s2 _ hv, fun hm => ?_⟩
        rcases s3 _ hm with hm | hm
        · exact hw hm
        · exact hm hv
    · rcases hkv with ⟨h0, _⟩ | ⟨_, h1, h2, _⟩
      · exact .inl (hx.trans h0)
      · rw [hx]
        refine .inr ⟨s2 _ h1, fun hm => ?_⟩
        rcases s3 _ hm with hm | hm
        · exact h2 hm
        · exact hm h1
  · intro j hj
    rcases s1 j hj with hj | hj
    · exact h.later j hj
    · obtain ⟨e, he, hm⟩ := (mem_dependents files k j).mp hj
      exact Nat.lt_of_le_of_lt hk (ho j e he k hm)

theorem loop_once (W : World) (files : List E) (home : File) (d : Decl) (ho : Ordered files)
    (fuel : Nat) (st : Search) (h : st.Once home) (hok : st.Ok files.length) :
    (searchLoop W files d fuel st).Once home := by
  induction fuel generalizing st with
  | zero => exact h
  | succ fuel ih =>
    rw [searchLoop]
    cases hl : st.worklist.getLast? with
    | none => exact h
    | some k =>
      simp only
      obtain ⟨h1, h2, h3, h4⟩ := hok
      obtain ⟨l, hl'⟩ := List.getLast?_eq_some_iff.mp hl
      have hdl : st.worklist.dropLast = l := by rw [hl', List.dropLast_concat]
      rw [hdl]
      rw [hl'] at h2
      have hnd := List.nodup_append.mp h2
      have hkl : k ∉ l := fun hk => hnd.2.2 k hk k (by simp) rfl
      have hks : k ∈ st.searched := h3 k (by rw [hl']; simp)
      have hok' : Search.Ok files.length { st with worklist := l } :=
        ⟨h1, hnd.1, fun j hj => h3 j (by rw [hl']; exact List.mem_append_left _ hj), h4⟩
      refine ih _ ?_ (visit_ok W files d k _ hok').1
      have hlt := h.later k hks
      refine visit_once W files home d ho k _ (Nat.le_of_lt hlt) ⟨h.nodup, ?_, h.later⟩
        (.inr ⟨hlt, hks, hkl, ?_⟩)
      · intro x hx
        rcases h.visited x hx with hv | ⟨hv, hw⟩
        · exact .inl hv
        · exact .inr ⟨hv, fun hm => hw (by rw [hl']; exact List.mem_append_left _ hm)⟩
      · intro x hx hxk
        rcases h.visited x hx with hv | ⟨_, hw⟩
        · exact Nat.ne_of_lt hlt (hv.symm.trans hxk)
        · exact hw (by rw [hl', hxk]; simp)

/-- **No place is reported twice**, if the imports have no cycle.  With a cycle it is false:
see `cycle_repeats`. -/
theorem references_once_partial (W : World) (files : List E) (home : File) (d : Decl)
    (ho : Ordered files) : (references W files home d).Nodup := by
  have h0 : Search.Ok files.length ⟨[], [], []⟩ :=
    ⟨List.nodup_nil, List.nodup_nil, fun k hk => (by cases hk), fun k hk => (by cases hk)⟩
  have h1 : Search.Once home ⟨[], [], []⟩ :=
    ⟨List.nodup_nil, fun x hx => (by cases hx), fun j hj => (by cases hj)⟩
  exact (loop_once W files home d ho _ _
    (visit_once W files home d ho home _ (Nat.le_refl _) h1 (.inl ⟨rfl, rfl⟩))
    (visit_ok W files d home _ h0).1).nodup

/-! ### Examples -/

/-- The references of the variable of the first file of `sample`, and of the function of
the second. -/
example : references W0 sample 0 (.var 1 1) = [(0, 1), (0, 5), (1, 19)] ∧
    references W0 sample 1 (.func 12 5) = [(1, 12), (1, 17), (2, 22), (2, 23), (2, 24)] := by
  decide +kernel

theorem sample_reached : Reached W0 sample 0 (.var 1 1) 1 :=
  .step 0 1 _ _ .home rfl (by decide) (by decide +kernel) rfl (by decide)

example : (1, 19) ∈ references W0 sample 0 (.var 1 1) :=
  references_complete_partial W0 sample sample_plain 0 _ (by decide) 1 _ 19 sample_reached rfl (by decide)
    (by decide +kernel)

theorem sample_ordered : Ordered sample := by
  intro j e hj k hk
  match j, hj with
  | 0, hj => cases hj; simp [importsOf, importsOfParams] at hk
  | 1, hj =>
    cases hj
    simp [importsOf, importsOfParams] at hk
    subst hk
    decide
  | 2, hj =>
    cases hj
    simp [importsOf] at hk
    subst hk
    decide
  | j + 3, hj => simp [sample] at hj

/-- `#let x` in a file, a file `#import "a.typ": *` which does not write the name, and a file
importing that one: the use in the third is not reported, though go to definition finds the
way. -/
theorem facade_hides :
    let files := [E.letPat [(1, 1)] .skip, E.imp ⟨2, .path 3 0, none, .star⟩,
      E.seq (.imp ⟨4, .path 5 1, none, .star⟩) (.ident 6 1 false)]
    definition W0 files 2 6 = some (.decl (.var 1 1)) ∧
      (6, some (Meaning.decl (.var 1 1))) ∈ placesOf W0 files 2 ∧
      references W0 files 0 (.var 1 1) = [(0, 1)] := by decide +kernel

/-- `#import "a.typ": x as y` in a file, and `#import "b.typ": y` in another: the uses in the
other are not reported. -/
theorem alias_hides :
    let files := [E.letPat [(1, 1)] .skip,
      E.imp ⟨2, .path 3 0, none, .items [⟨[(4, 1)], some (5, 2)⟩]⟩,
      E.seq (.imp ⟨6, .path 7 1, none, .items [⟨[(8, 2)], none⟩]⟩) (.ident 9 2 false)]
    definition W0 files 2 9 = some (.decl (.var 1 1)) ∧
      references W0 files 0 (.var 1 1) = [(0, 1), (1, 4), (1, 5)] := by decide +kernel

/-- Two files importing each other: the file of the definition is searched again. -/
theorem cycle_repeats :
    let files := [E.seq (.letPat [(1, 1)] .skip) (.imp ⟨2, .path 3 1, none, .star⟩),
      E.seq (.imp ⟨4, .path 5 0, none, .star⟩) (.ident 6 1 false)]
    references W0 files 0 (.var 1 1) = [(0, 1), (1, 6), (0, 1)] := by decide +kernel

/-! ## C72 -/

/-- Each file is edited where its entry of `hs` says. -/
def editAll (hs : File → Span → Bool) (new : Name) (files : List E) : List E :=
  files.mapIdx (fun k e => renameE (hs k) new e)

theorem editAll_take (hs : File → Span → Bool) (new : Name) (files : List E) (k : Nat) :
    (editAll hs new files).take k = editAll hs new (files.take k) := by
  apply List.ext_getElem?
  intro i
  rw [editAll, editAll, List.getElem?_take, List.getElem?_mapIdx, List.getElem?_mapIdx,
    List.getElem?_take]
  split <;> rfl

theorem empty_renamed (d : Decl) (new : Name) : Renamed d new Env.empty Env.empty :=
  ⟨fun _ _ _ => rfl, fun n h => (by cases h), rfl, .inl rfl⟩

theorem placesOf_take (W : World) (files : List E) (n k : Nat) (hk : k < n) :
    placesOf W (files.take n) k = placesOf W files k := by
  rw [placesOf, placesOf, List.getElem?_take, if_pos hk, List.take_take,
    Nat.min_eq_left (by omega)]

theorem exports_renamed (W : World) (hs : File → Span → Bool) (d : Decl) (new : Name)
    (hd : d.Named) (hl : ∀ m, W.lib m new = none) (hst : ∀ f, W.stem f ≠ new) (files : List E)
    (hp : ∀ e ∈ files, Plain e) (hn : ∀ e ∈ files, new ∉ identifiers e)
    (hh : ∀ k, Hits (hs k) d (placesOf W files k)) :
    ∀ f, Renamed d new (exportEnv (exportEnvs W files) f)
      (exportEnv (exportEnvs W (editAll hs new files)) f) := by
  induction files using Util.reverseInd with
  | nil => intro f; exact empty_renamed d new
  | append_singleton files e ih =>
    have htake : files = (files ++ [e]).take files.length := by simp
    have hi := ih (fun e' he' => hp e' (by simp [he'])) (fun e' he' => hn e' (by simp [he']))
      (by
        intro k
        by_cases hk : k < files.length
        · rw [htake, placesOf_take _ _ _ _ hk]
          exact hh k
        · intro x hx
          rw [placesOf, List.getElem?_eq_none (Nat.le_of_not_lt hk)] at hx
          cases hx)
    have hedit : editAll hs new (files ++ [e]) =
        editAll hs new files ++ [renameE (hs files.length) new e] := by
      rw [editAll, List.mapIdx_concat]
      rfl
    have hlen : (editAll hs new files).length = files.length := by
      rw [editAll, List.length_mapIdx]
    have hlast : Hits (hs files.length) d
        (uses W (exportEnv (exportEnvs W files)) e Env.empty).1 := by
      have := hh files.length
      rw [placesOf] at this
      simp at this
      exact this
    obtain ⟨-, hu⟩ := uses_moved W _ _ (hs files.length) d new hd hi hl hst e _ _
      (empty_renamed d new) (hp e (by simp)) (fun n hne e' => hn e (by simp) (e' ▸ hne)) hlast
    intro f
    rw [hedit, exportEnvs_snoc, exportEnvs_snoc]
    have l2 := (lengths W files).2
    have l3 := (lengths W (editAll hs new files)).2
    simp only [exportEnv, List.getD_eq_getElem?_getD]
    rcases Nat.lt_trichotomy f files.length with hlt | heq | hgt
    · rw [List.getElem?_append_left (by omega), List.getElem?_append_left (by omega)]
      have := hi f
      simp only [exportEnv, List.getD_eq_getElem?_getD] at this
      exact this
    · rw [List.getElem?_append_right (by omega), List.getElem?_append_right (by omega), l2, l3,
        hlen, heq, Nat.sub_self]
      exact hu
    · rw [List.getElem?_append_right (by omega), List.getElem?_append_right (by omega),
        List.getElem?_eq_none (by simp; omega), List.getElem?_eq_none (by simp; omega)]
      exact empty_renamed d new

/-- Editing exactly the places which mean the definition keeps every meaning. -/
theorem edits_preserve (W : World) (hs : File → Span → Bool) (d : Decl) (new : Name)
    (hd : d.Named) (files : List E) (hf : Fresh W files new)
    (hp : ∀ e ∈ files, Plain e)
    (hh : ∀ k, Hits (hs k) d (placesOf W files k)) (k : File) :
    placesOf W (editAll hs new files) k = moved d new (placesOf W files k) := by
  obtain ⟨hn, hl, hst⟩ := hf
  have hk := hh k
  rw [placesOf, placesOf, editAll_take]
  rw [placesOf] at hk
  rw [editAll, List.getElem?_mapIdx]
  cases he : files[k]? with
  | none => rfl
  | some e =>
    rw [he] at hk
    simp only at hk
    have hsub : ∀ e' ∈ files.take k, e' ∈ files := fun e' h => List.mem_of_mem_take h
    have hex := exports_renamed W hs d new hd hl hst (files.take k)
      (fun e' h => hp e' (hsub e' h)) (fun e' h => hn e' (hsub e' h)) (by
        intro j
        by_cases hj : j < k
        · rw [placesOf_take _ _ _ _ hj]; exact hh j
        · intro x hx
          rw [placesOf, List.getElem?_take, if_neg hj] at hx
          cases hx)
    have hm : e ∈ files := List.mem_of_getElem? he
    exact (uses_moved W _ _ (hs k) d new hd hex hl hst e _ _ (empty_renamed d new) (hp e hm)
      (fun n hne e' => hn e hm (e' ▸ hne)) hk).1

/-- **After a rename every name means what it meant before**: the places of each file are the
same ones, those which meant the definition mean it under its new name, and the others what
they did.  `hr`: every use of the definition is in a file the search gets to; `Fresh`: the new
name is not in use. -/
theorem rename_preserves_meaning_partial (W : World) (files : List E) (home : File) (d : Decl)
    (new : Name) (hd : d.Named) (hn : d.name W ≠ 0) (hp : PlainProject W files) (hf : Fresh W files new)
    (hc : ∀ k, ∀ x ∈ placesOf W files k, ∀ y ∈ placesOf W files k, x.1 = y.1 → x = y)
    (hr : ∀ k e s, files[k]? = some e → (s, some (.decl d)) ∈ placesOf W files k →
      Reached W files home d k ∧ d.name W ∈ identifiers e) (k : File) :
    placesOf W (renameProject W files home d new) k =
      (placesOf W files k).map (fun x => (x.1, x.2.map (Meaning.renamed d new))) := by
  refine edits_preserve W (fun k s => (references W files home d).contains (k, s)) d new hd files
    hf ?_ ?_ k
  · intro e he
    obtain ⟨i, hi⟩ := List.mem_iff_getElem?.mp he
    exact (hp i e hi).1
  · intro j x hx
    obtain ⟨s, m⟩ := x
    simp only [List.contains_iff_mem]
    cases he : files[j]? with
    | none =>
      rw [placesOf, he] at hx
      cases hx
    | some e =>
      constructor
      · intro h
        have hdef := references_sound W files home d j s h
        rw [definition_follows_rules_partial W files hp j (hc j) s m hx] at hdef
        cases m with
        | none => cases hdef
        | some m =>
          cases m with
          | decl d' =>
            simp only [Option.bind_some, Meaning.answer, Option.some.injEq, Ans.decl.injEq] at hdef
            rw [hdef]
          | value v => cases hdef
          | unknown => cases hdef
      · intro hm
        subst hm
        obtain ⟨h1, h2⟩ := hr j e s he hx
        exact references_complete_partial W files hp home d hn j e s h1 he h2
          (definition_follows_rules_partial W files hp j (hc j) s _ hx)

/-! ### Examples -/

/-- Renaming `x` to a new name in `sample`. -/
example : renameProject W0 sample 0 (.var 1 1) 40 =
    [ .seq (.letPat [(1, 40)] .skip)
        (.closure 2 (some 2) (.pos [(3, 3)] (.named 4 4 (.ident 5 40 false) .nil))
          (.ident 6 3 false)),
      .seq (.imp ⟨10, .path 11 0, none, .star⟩)
        (.closure 12 (some 5) (.pos [(13, 6)] (.sink 14 7 .nil))
          (.block (.forIn [(15, 8)] (.ident 16 6 false)
            (.block (.seq (.ident 17 5 false)
              (.seq (.ident 18 8 false) (.ident 19 40 false))))))),
      .seq (.imp ⟨20, .path 21 1, none, .items [⟨[(22, 5)], some (23, 9)⟩]⟩)
        (.seq (.ident 24 9 false) (.ident 25 2 false)) ] := by
  rfl

theorem sample_fresh : Fresh W0 sample 40 := by
  refine ⟨by decide, fun m => by cases m <;> rfl, fun f => ?_⟩
  exact Nat.ne_of_gt (Nat.lt_of_lt_of_le (by decide : 40 < 100) (Nat.le_add_right 100 f))

/-- The theorem applies to it. -/
example (k : File) : placesOf W0 (renameProject W0 sample 0 (.var 1 1) 40) k =
    (placesOf W0 sample k).map (fun x => (x.1, x.2.map (Meaning.renamed (.var 1 1) 40))) := by
  refine rename_preserves_meaning_partial W0 sample 0 (.var 1 1) 40 ⟨1, 1, .inl rfl⟩ (by decide) sample_plain
    sample_fresh ?_ ?_ k
  · intro j
    by_cases hj : j < 3
    · exact sample_places j hj
    · intro x hx
      rw [placesOf, List.getElem?_eq_none (by simp [sample]; omega)] at hx
      cases hx
  · intro j e s he hs
    match j, he with
    | 0, he => cases he; exact ⟨.home, by decide⟩
    | 1, he => cases he; exact ⟨sample_reached, by decide⟩
    | 2, he =>
      exfalso
      have : ∀ x ∈ placesOf W0 sample 2, x.2 ≠ some (.decl (.var 1 1)) := by decide +kernel
      exact this _ hs rfl
    | j + 3, he => simp [sample] at he

/-- Renaming `x` where another file re-exports it under an alias: a third file importing the
alias no longer finds it. -/
theorem rename_breaks_alias :
    let files := [E.letPat [(1, 1)] .skip,
      E.imp ⟨2, .path 3 0, none, .items [⟨[(4, 1)], some (5, 2)⟩]⟩,
      E.seq (.imp ⟨6, .path 7 1, none, .items [⟨[(8, 2)], none⟩]⟩) (.ident 9 2 false)]
    (9, some (Meaning.decl (.var 1 1))) ∈ placesOf W0 files 2 ∧
      (9, some Meaning.unknown) ∈ placesOf W0 (renameProject W0 files 0 (.var 1 1) 40) 2 := by
  decide +kernel

/-- `#let x = ..` `#let y = ..` `#x`, renaming `x` to `y`: nothing keeps the use from meaning
the other variable. -/
theorem rename_captures :
    let files := [E.seq (.letPat [(1, 1)] .skip) (.seq (.letPat [(2, 2)] .skip)
      (.ident 3 1 false))]
    (3, some (Meaning.decl (.var 1 1))) ∈ placesOf W0 files 0 ∧
      (3, some (Meaning.decl (.var 2 2))) ∈
        placesOf W0 (renameProject W0 files 0 (.var 1 1) 2) 0 := by decide +kernel

end Tinymist.Scoping
