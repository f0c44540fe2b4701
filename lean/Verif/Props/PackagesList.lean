import Verif.Props.PackagesKept
/-! C79: versions, listing and offering packages. C80: starting a project from a template. -/
namespace Tinymist.Packages

/-! The latest version -/

/-- C79: the latest version of a preview package is the newest in the index; of another the newest among the directories of the
package in the data directory; none if there is none. -/
theorem latest_right (index : List Spec) (entries : Text → List Text) (ns name : Text) (v : Version) :
    (latest index entries ns name = some v ↔
      if ns = "preview".toList then (∃ p ∈ index, p.name = name ∧ p.version = v) ∧ ∀ p ∈ index, p.name = name → p.version.Le v
      else (∃ t ∈ entries (ns ++ '/' :: name), parseVersion t = some v) ∧
        ∀ t ∈ entries (ns ++ '/' :: name), ∀ w, parseVersion t = some w → w.Le v) ∧
    (latest index entries ns name = none ↔
      if ns = "preview".toList then ∀ p ∈ index, p.name ≠ name else ∀ t ∈ entries (ns ++ '/' :: name), parseVersion t = none) := by
  have hns : "preview".toList = previewNs := rfl
  rw [hns]
  unfold latest
  split
  · refine ⟨?_, ?_⟩
    · rw [maxVersion_some]
      simp only [List.mem_map, List.mem_filter, decide_eq_true_eq]
      constructor
      · rintro ⟨⟨p, ⟨h1, h2⟩, h3⟩, h4⟩
        exact ⟨⟨p, h1, h2, h3⟩, fun q hq hn => h4 _ ⟨q, ⟨hq, hn⟩, rfl⟩⟩
      · rintro ⟨⟨p, h1, h2, h3⟩, h4⟩
        refine ⟨⟨p, ⟨h1, h2⟩, h3⟩, ?_⟩
        rintro w ⟨q, ⟨hq, hn⟩, rfl⟩
        exact h4 q hq hn
    · rw [maxVersion_none, List.map_eq_nil_iff, List.filter_eq_nil_iff]
      simp
  · refine ⟨?_, ?_⟩
    · rw [maxVersion_some]
      simp only [List.mem_filterMap]
      constructor
      · rintro ⟨⟨t, h1, h2⟩, h3⟩
        exact ⟨⟨t, h1, h2⟩, fun t' ht w hw => h3 w ⟨t', ht, hw⟩⟩
      · rintro ⟨⟨t, h1, h2⟩, h3⟩
        refine ⟨⟨t, h1, h2⟩, ?_⟩
        rintro w ⟨t', ht, hw⟩
        exact h3 t' ht w hw
    · rw [maxVersion_none, List.filterMap_eq_nil_iff]

/-- C79: if directories of versions are named as versions are printed, the latest version is found by a call for it, in the data
directory. -/
theorem latest_found_partial {B : Type} (data cache : Text → Option (Dir B)) (index : List Spec) (entries : Text → List Text) (ns name : Text)
    (v : Version) (hns : ns ≠ "preview".toList)
    (hthere : ∀ t ∈ entries (ns ++ '/' :: name), data (ns ++ '/' :: (name ++ '/' :: t)) ≠ none)
    (hname : ∀ t ∈ entries (ns ++ '/' :: name), ∀ w, parseVersion t = some w → t = w.print)
    (h : latest index entries ns name = some v) (resp : Resp B) (fails : Bool) :
    ∃ d, (run (init data cache) [.call ⟨ns, name, v⟩, .move 0 resp fails]).returned = [⟨⟨ns, name, v⟩, .data, some d⟩] := by
  have := (latest_right index entries ns name v).1.mp h
  simp only [hns, if_false] at this
  obtain ⟨⟨t, ht, hv⟩, -⟩ := this
  have hdir : subdir ⟨ns, name, v⟩ = ns ++ '/' :: (name ++ '/' :: t) := by rw [hname t ht v hv]; rfl
  obtain ⟨d, hd⟩ := Option.ne_none_iff_exists'.mp (hthere t ht)
  rw [← hdir] at hd
  refine ⟨d, ?_⟩
  simp [run, move, init, step, hd, St.give]

/-- C79: a directory `01.0.0` counts as version 1.0.0, which is then not found. -/
theorem latest_not_found :
    let data : Text → Option (Dir Nat) := fun k => if k = "local/p/01.0.0".toList then some fun _ => none else none
    let entries : Text → List Text := fun k => if k = "local/p".toList then ["01.0.0".toList] else []
    latest [] entries "local".toList "p".toList = some ⟨1, 0, 0⟩ ∧
    ((run (init data fun _ => none) [.call ⟨"local".toList, "p".toList, ⟨1, 0, 0⟩⟩, .move 0 .notFound false, .move 0 .notFound false]).returned.map
      (·.result)) = [.notFound] := by decide +kernel

/-! The index -/

/-- C79: the index is requested at most once; everyone is given the answer to the first request, or nothing ever if that failed. -/
theorem index_once (answers : List (Option (List Spec))) :
    (Index.downloads ⟨none, 0⟩ answers).1 = answers.map (fun _ => (answers.head?.bind id).getD []) ∧
    (Index.downloads ⟨none, 0⟩ answers).2.requests = min answers.length 1 := by
  have key : ∀ (l : List (Option (List Spec))) (a : List Spec) (n : Nat),
      (Index.downloads ⟨some a, n⟩ l).1 = l.map (fun _ => a) ∧ (Index.downloads ⟨some a, n⟩ l).2.requests = n := by
    intro l a n
    induction l with
    | nil => exact ⟨rfl, rfl⟩
    | cons r l ih => simp only [Index.downloads, Index.download, List.map_cons]; exact ⟨by rw [ih.1], ih.2⟩
  cases answers with
  | nil => exact ⟨rfl, rfl⟩
  | cons r l =>
    simp only [Index.downloads, Index.download, List.map_cons, List.head?_cons]
    refine ⟨by rw [(key l _ _).1]; rfl, ?_⟩
    rw [(key l _ _).2]
    simp only [List.length_cons]; omega

/-! Listing -/

/-- C79: every directory `ns/name/version` is listed, unless it or its parent is hidden or the version is no version, and nothing
else; and it is where a call for the package looks, if it is named as the version is printed. -/
theorem listed (t : Tree) (ns : Text) (path : Text) (spec : Spec) :
    ((path, spec) ∈ listIn t ns ↔ spec.ns = ns ∧ spec.name ∈ t.names ns ∧ spec.name.head? ≠ some '.' ∧
      ∃ v ∈ t.versions ns spec.name, v.head? ≠ some '.' ∧ parseVersion v = some spec.version ∧
        path = ns ++ "/".toList ++ spec.name ++ "/".toList ++ v) ∧
    ((path, spec) ∈ listIn t ns → (∀ n, ∀ v ∈ t.versions ns n, ∀ w, parseVersion v = some w → v = w.print) → path = subdir spec) := by
  have key : (path, spec) ∈ listIn t ns ↔ spec.ns = ns ∧ spec.name ∈ t.names ns ∧ spec.name.head? ≠ some '.' ∧
      ∃ v ∈ t.versions ns spec.name, v.head? ≠ some '.' ∧ parseVersion v = some spec.version ∧
        path = ns ++ "/".toList ++ spec.name ++ "/".toList ++ v := by
    unfold listIn
    simp only [List.mem_flatMap, List.mem_filter, List.mem_filterMap, Option.map_eq_some_iff, Prod.mk.injEq, decide_eq_true_eq]
    constructor
    · rintro ⟨n, ⟨hn, hh⟩, v, ⟨hv, hvh⟩, w, hw, hp, rfl⟩
      exact ⟨rfl, hn, hh, v, hv, hvh, hw, by rw [← hp]; simp⟩
    · rintro ⟨rfl, hn, hh, v, hv, hvh, hw, hp⟩
      exact ⟨spec.name, ⟨hn, hh⟩, v, ⟨hv, hvh⟩, spec.version, hw, by rw [hp]; simp, rfl⟩
  refine ⟨key, fun h hc => ?_⟩
  obtain ⟨rfl, hn, hh, v, hv, hvh, hw, hp⟩ := key.mp h
  rw [hp, hc _ v hv _ hw]
  simp [subdir]

/-- C79: a package in both directories is listed twice, also where a call for it does not look. -/
theorem listed_twice :
    let t : Tree := ⟨fun _ => ["p".toList], fun _ _ => ["1.0.0".toList]⟩
    listPackages t t "local".toList =
      [(false, "local/p/1.0.0".toList, ⟨"local".toList, "p".toList, ⟨1, 0, 0⟩⟩), (true, "local/p/1.0.0".toList, ⟨"local".toList, "p".toList, ⟨1, 0, 0⟩⟩)] := by
  decide +kernel

/-! Offering -/

def groupCmp : Spec → Spec → Ordering := compareLex (compareOn Spec.ns) (compareOn Spec.name)

instance : Std.TransCmp groupCmp := inferInstanceAs (Std.TransCmp (compareLex (compareOn Spec.ns) (compareOn Spec.name)))

theorem group_eq {a b : Spec} : groupCmp a b = .eq ↔ a.Same b := by
  unfold groupCmp compareLex compareOn Spec.Same
  rw [Ordering.then_eq_eq, Std.LawfulEqOrd.compare_eq_iff_eq, Std.LawfulEqOrd.compare_eq_iff_eq]

instance : Std.TransCmp (fun a b : Spec => b.version.cmp a.version) where
  eq_swap := Std.OrientedCmp.eq_swap (cmp := Version.cmp)
  isLE_trans := fun h1 h2 => Std.TransCmp.isLE_trans (cmp := Version.cmp) h2 h1
instance : Std.TransCmp Spec.cmp :=
  inferInstanceAs (Std.TransCmp (compareLex (compareOn Spec.ns) (compareLex (compareOn Spec.name) fun a b : Spec => b.version.cmp a.version)))

theorem spec_cmp (a b : Spec) : a.cmp b = (groupCmp a b).then (b.version.cmp a.version) := by
  unfold Spec.cmp groupCmp compareLex compareOn
  rw [Ordering.then_assoc]

theorem cmp_group {a b : Spec} (h : (a.cmp b).isLE = true) : (groupCmp a b).isLE = true := by
  rw [spec_cmp] at h
  cases hg : groupCmp a b <;> rw [hg] at h <;> simp_all [Ordering.then]

theorem cmp_same {a b : Spec} (hs : a.Same b) : (a.cmp b).isLE = true ↔ b.version.Le a.version := by
  rw [spec_cmp, group_eq.mpr hs, Ordering.eq_then, ← le_iff]
  cases b.version.cmp a.version <;> simp

theorem same_eq {a b : Spec} (hs : a.Same b) (hv : a.version = b.version) : a = b := by
  obtain ⟨n, m, v⟩ := a
  obtain ⟨n', m', v'⟩ := b
  obtain ⟨h1, h2⟩ := hs
  simp only at h1 h2 hv
  rw [h1, h2, hv]

theorem dedup_sub (l : List Spec) : ∀ x ∈ dedup l, x ∈ l := by
  fun_induction dedup l with
  | case1 => simp
  | case2 a => simp
  | case3 a b l h ih =>
    intro x hx
    rcases List.mem_cons.mp (ih x hx) with h | h
    · rw [h]; exact List.mem_cons_self
    · exact List.mem_cons_of_mem _ (List.mem_cons_of_mem _ h)
  | case4 a b l h ih =>
    intro x hx
    rcases List.mem_cons.mp hx with h | h
    · rw [h]; exact List.mem_cons_self
    · exact List.mem_cons_of_mem _ (ih x h)

theorem dedup_cover (l : List Spec) (hl : l.Pairwise fun a b => (a.cmp b).isLE = true) :
    ∀ x ∈ l, ∃ y ∈ dedup l, y.Same x ∧ x.version.Le y.version := by
  fun_induction dedup l with
  | case1 => simp
  | case2 a => simpa using ⟨⟨rfl, rfl⟩, Version.le_refl _⟩
  | case3 a b l h ih =>
    have hl' : (a :: l).Pairwise fun a b => (a.cmp b).isLE = true := by
      rw [List.pairwise_cons] at hl ⊢
      exact ⟨fun x hx => hl.1 x (List.mem_cons_of_mem _ hx), (List.pairwise_cons.mp hl.2).2⟩
    have hab : (a.cmp b).isLE = true := (List.pairwise_cons.mp hl).1 b List.mem_cons_self
    intro x hx
    have ih := ih hl'
    rcases List.mem_cons.mp hx with rfl | hx
    · exact ih _ List.mem_cons_self
    · rcases List.mem_cons.mp hx with rfl | hx
      · obtain ⟨y, hy, hs, hv⟩ := ih a List.mem_cons_self
        exact ⟨y, hy, ⟨hs.1.trans h.1, hs.2.trans h.2⟩, Version.le_trans ((cmp_same h).mp hab) hv⟩
      · exact ih x (List.mem_cons_of_mem _ hx)
  | case4 a b l h ih =>
    have ih := ih (List.pairwise_cons.mp hl).2
    intro x hx
    rcases List.mem_cons.mp hx with rfl | hx
    · exact ⟨_, List.mem_cons_self, ⟨rfl, rfl⟩, Version.le_refl _⟩
    · obtain ⟨y, hy, h⟩ := ih x hx
      exact ⟨y, List.mem_cons_of_mem _ hy, h⟩

theorem dedup_apart (l : List Spec) (hl : l.Pairwise fun a b => (a.cmp b).isLE = true) :
    (dedup l).Pairwise fun a b => groupCmp a b = .lt := by
  fun_induction dedup l with
  | case1 => exact List.Pairwise.nil
  | case2 a => exact List.pairwise_singleton _ _
  | case3 a b l h ih =>
    apply ih
    rw [List.pairwise_cons] at hl ⊢
    exact ⟨fun x hx => hl.1 x (List.mem_cons_of_mem _ hx), (List.pairwise_cons.mp hl.2).2⟩
  | case4 a b l h ih =>
    rw [List.pairwise_cons] at hl ⊢
    refine ⟨fun x hx => ?_, ih hl.2⟩
    have hx' := dedup_sub _ x hx
    have hab : groupCmp a b = .lt := by
      have := cmp_group (hl.1 b List.mem_cons_self)
      cases hg : groupCmp a b with
      | lt => rfl
      | eq => exact absurd (group_eq.mp hg) h
      | gt => rw [hg] at this; cases this
    rcases List.mem_cons.mp hx' with rfl | hx'
    · exact hab
    · exact Std.TransCmp.lt_of_lt_of_isLE hab (cmp_group ((List.pairwise_cons.mp hl.2).1 x hx'))

theorem mem_fresh (l seen : List Spec) (x : Spec) : x ∈ fresh seen l ↔ x ∈ l ∧ x ∉ seen := by
  induction l generalizing seen with
  | nil => simp [fresh]
  | cons a l ih =>
    unfold fresh
    split
    · rename_i h
      rw [ih, List.mem_cons]
      constructor
      · rintro ⟨h1, h2⟩; exact ⟨Or.inr h1, h2⟩
      · rintro ⟨rfl | h1, h2⟩
        · exact absurd h h2
        · exact ⟨h1, h2⟩
    · rename_i h
      rw [List.mem_cons, ih, List.mem_cons, List.mem_cons]
      constructor
      · rintro (rfl | ⟨h1, h2⟩)
        · exact ⟨Or.inl rfl, h⟩
        · exact ⟨Or.inr h1, fun hx => h2 (Or.inr hx)⟩
      · rintro ⟨rfl | h1, h2⟩
        · exact Or.inl rfl
        · by_cases hxa : x = a
          · exact Or.inl hxa
          · exact Or.inr ⟨h1, by simp [hxa, h2]⟩

theorem fresh_sublist (l seen : List Spec) : (fresh seen l).Sublist l := by
  induction l generalizing seen with
  | nil => exact List.Sublist.refl _
  | cons a l ih =>
    unfold fresh
    split
    · exact (ih seen).cons a
    · exact (ih _).cons₂ a

theorem fresh_nodup (l seen : List Spec) : (fresh seen l).Nodup := by
  induction l generalizing seen with
  | nil => exact List.nodup_nil
  | cons a l ih =>
    unfold fresh
    split
    · exact ih seen
    · refine List.nodup_cons.mpr ⟨fun h => ?_, ih _⟩
      exact ((mem_fresh l _ a).mp h).2 List.mem_cons_self

theorem sorted (packages : List Spec) : (packages.mergeSort fun a b => (a.cmp b).isLE).Pairwise fun a b => (a.cmp b).isLE = true := by
  apply List.pairwise_mergeSort
  · intro a b c h1 h2
    exact Std.TransCmp.isLE_trans h1 h2
  · intro a b
    have := Std.OrientedCmp.eq_swap (cmp := Spec.cmp) (a := a) (b := b)
    cases h : a.cmp b
    · simp
    · simp
    · rw [h] at this
      cases h' : b.cmp a
      · simp
      · simp
      · rw [h'] at this; cases this

/-- C79: with all versions wanted, every package is offered once; else of every package the newest version, once. Packages come in
the order of namespace and name, newer versions first. -/
theorem offered (packages : List Spec) :
    (∀ b, (offer packages b).Nodup ∧ (offer packages b).Pairwise fun p q => (p.cmp q).isLE = true) ∧
    (∀ p, p ∈ offer packages true ↔ p ∈ packages) ∧
    ((offer packages false).Pairwise fun p q => ¬ p.Same q) ∧
    ∀ p, p ∈ offer packages false ↔ p ∈ packages ∧ ∀ q ∈ packages, q.Same p → q.version.Le p.version := by
  have hs := sorted packages
  have hmem : ∀ x, x ∈ (packages.mergeSort fun a b => (a.cmp b).isLE) ↔ x ∈ packages := fun x => List.mem_mergeSort
  have hap := dedup_apart _ hs
  have hd : (dedup (packages.mergeSort fun a b => (a.cmp b).isLE)).Pairwise fun p q => ¬ p.Same q :=
    hap.imp fun h hsame => by rw [group_eq.mpr hsame] at h; cases h
  refine ⟨?_, ?_, ?_, ?_⟩
  · intro b
    refine ⟨fresh_nodup _ _, ?_⟩
    cases b
    · refine List.Pairwise.sublist (fresh_sublist _ _) (hap.imp ?_)
      intro p q h
      rw [spec_cmp, h]; rfl
    · exact List.Pairwise.sublist (fresh_sublist _ _) hs
  · intro p
    unfold offer
    simp [mem_fresh]
  · exact List.Pairwise.sublist (fresh_sublist _ _) hd
  · intro p
    unfold offer
    simp only [mem_fresh, Bool.false_eq_true, if_false, List.not_mem_nil, not_false_eq_true, and_true]
    constructor
    · intro hp
      refine ⟨(hmem p).mp (dedup_sub _ p hp), fun q hq hsame => ?_⟩
      obtain ⟨y, hy, hys, hv⟩ := dedup_cover _ hs q ((hmem q).mpr hq)
      have : y = p := by
        have hsyp : y.Same p := ⟨hys.1.trans hsame.1, hys.2.trans hsame.2⟩
        exact Classical.byContradiction fun hne => by
          obtain ⟨i, hi⟩ := List.mem_iff_getElem?.mp hy
          obtain ⟨j, hj⟩ := List.mem_iff_getElem?.mp hp
          obtain ⟨hi', hi⟩ := List.getElem?_eq_some_iff.mp hi
          obtain ⟨hj', hj⟩ := List.getElem?_eq_some_iff.mp hj
          rcases Nat.lt_trichotomy i j with h | h | h
          · exact (List.pairwise_iff_getElem.mp hd) i j hi' hj' h (by rw [hi, hj]; exact hsyp)
          · subst h; exact hne (hi.symm.trans hj)
          · exact (List.pairwise_iff_getElem.mp hd) j i hj' hi' h (by rw [hi, hj]; exact ⟨hsyp.1.symm, hsyp.2.symm⟩)
      rw [← this]; exact hv
    · rintro ⟨hp, hmax⟩
      obtain ⟨y, hy, hys, hv⟩ := dedup_cover _ hs p ((hmem p).mpr hp)
      have hyp := hmax y ((hmem y).mp (dedup_sub _ y hy)) hys
      rw [← same_eq hys (Version.le_antisymm hyp hv)]; exact hy

/-- Of two versions the newer one is offered; 0.10.0 is newer than 0.9.0. -/
example : let old : Spec := ⟨"preview".toList, "b".toList, ⟨0, 9, 0⟩⟩
    let new : Spec := ⟨"preview".toList, "b".toList, ⟨0, 10, 0⟩⟩
    new ∈ offer [old, cetz, new] false ∧ old ∉ offer [old, cetz, new] false := by
  intro old new
  constructor
  · refine ((offered _).2.2.2 _).mpr ⟨by simp, fun q hq _ => ?_⟩
    have hv : ∀ q ∈ [old, cetz, new], q.version.major = 0 ∧ q.version.minor ≤ 10 ∧ q.version.patch ≤ 1 ∧ (q.version.minor = 10 → q.version.patch = 0) := by
      decide +kernel
    have := hv q hq
    unfold Version.Le
    simp only [new]
    omega
  · intro h
    have := (((offered _).2.2.2 _).mp h).2 new (by simp) ⟨rfl, rfl⟩
    unfold Version.Le at this
    simp [old, new] at this

end Tinymist.Packages
