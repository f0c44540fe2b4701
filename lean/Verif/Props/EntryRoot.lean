import Verif.Props.Entry
import Verif.Spec.EntryRoot

/-!
# C67: the root of an opened file
-/

namespace Tinymist.Workspace

open Paths

theorem ancestors_names (ns : List Text) :
    ancestors (.root :: names ns) = ((List.range (ns.length + 1)).map fun k => Comp.root :: names (ns.take k)).reverse := by
  rw [← List.reverse_reverse ns]
  generalize ns.reverse = l
  induction l with
  | nil =>
    rw [ancestors]
    simp [names]
  | cons n l ih =>
    rw [List.reverse_cons]
    generalize l.reverse = ms at ih
    have e : Comp.root :: names (ms ++ [n]) = (Comp.root :: names ms) ++ [.normal n] := by simp [names]
    rw [ancestors, dif_neg (by simp), if_neg (by rw [e, List.getLast?_concat]; simp)]
    rw [show (Comp.root :: names (ms ++ [n])).dropLast = Comp.root :: names ms by rw [e, List.dropLast_concat], ih]
    rw [List.length_append, List.length_singleton, List.range_succ (n := ms.length + 1), List.map_append, List.reverse_append]
    simp only [List.map_cons, List.map_nil, List.reverse_cons, List.reverse_nil, List.nil_append, List.cons_append]
    congr 1
    · rw [List.take_of_length_le (by simp)]
    · congr 1
      apply List.map_congr_left
      intro k hk
      rw [List.mem_range] at hk
      rw [List.take_append_of_le_length (by omega)]

theorem find_reverse_range (p : Nat → Bool) (n : Nat) :
    (∀ k, ((List.range n).reverse.find? p) = some k ↔ k < n ∧ p k = true ∧ ∀ j, k < j → j < n → p j = false) ∧
    (((List.range n).reverse.find? p) = none ↔ ∀ j < n, p j = false) := by
  induction n with
  | zero => simp
  | succ n ih =>
    rw [List.range_succ, List.reverse_append, List.reverse_singleton, List.singleton_append]
    obtain ⟨ih1, ih2⟩ := ih
    cases hp : p n with
    | true =>
      rw [List.find?_cons_of_pos hp]
      constructor
      · intro k
        constructor
        · intro h
          cases h
          exact ⟨by omega, hp, fun j h1 h2 => by omega⟩
        · rintro ⟨h1, h2, h3⟩
          by_cases h : k = n
          · rw [h]
          · exact absurd (h3 n (by omega) (by omega)) (by simp [hp])
      · constructor
        · intro h; cases h
        · intro h; exact absurd (h n (by omega)) (by simp [hp])
    | false =>
      rw [List.find?_cons_of_neg (by simp [hp])]
      constructor
      · intro k
        rw [ih1]
        constructor
        · rintro ⟨h1, h2, h3⟩
          refine ⟨by omega, h2, fun j h4 h5 => ?_⟩
          by_cases h : j = n
          · rw [h]; exact hp
          · exact h3 j h4 (by omega)
        · rintro ⟨h1, h2, h3⟩
          have : k ≠ n := by rintro rfl; rw [hp] at h2; cases h2
          exact ⟨by omega, h2, fun j h4 h5 => h3 j h4 (by omega)⟩
      · rw [ih2]
        constructor
        · intro h j hj
          by_cases h' : j = n
          · rw [h']; exact hp
          · exact h j (by omega)
        · intro h j hj; exact h j (by omega)

theorem find_package (hasToml : HasToml) {entry : Text} {ns : List Text} (he : components entry = .root :: names ns) :
    (∀ d, ((ancestors (components entry)).map collect).find? hasToml = some d → NearestPackage hasToml ns d) ∧
    (((ancestors (components entry)).map collect).find? hasToml = none → NoPackage hasToml ns) := by
  have e : (ancestors (components entry)).map collect = (List.range (ns.length + 1)).reverse.map (upTo ns) := by
    rw [he, ancestors_names, List.map_reverse, List.map_map, List.map_reverse]; rfl
  rw [e, List.find?_map]
  obtain ⟨h1, h2⟩ := find_reverse_range (hasToml ∘ upTo ns) (ns.length + 1)
  constructor
  · intro d hd
    obtain ⟨k, hk, rfl⟩ := Option.map_eq_some_iff.mp hd
    obtain ⟨a, b, c⟩ := (h1 k).mp hk
    exact ⟨k, by omega, rfl, b, fun j hj hj' => c j hj (by omega)⟩
  · intro hn j hj
    exact h2.mp (Option.map_eq_none_iff.mp hn) j (by omega)

/-- The cache holds what a search finds. -/
def Fresh (hasToml : HasToml) (rootPath : Option Text) (roots : List Text) (r : Resolver) : Prop :=
  r.rootPath = rootPath ∧ r.roots = roots ∧
    ∀ e ∈ r.cache, e.2 = ((ancestors (components e.1)).map collect).find? hasToml

theorem root_fresh {hasToml : HasToml} {rootPath : Option Text} {roots : List Text} {r : Resolver}
    (h : Fresh hasToml rootPath roots r) (entry : Text) : Fresh hasToml rootPath roots (r.root hasToml entry).1 := by
  obtain ⟨h1, h2, h3⟩ := h
  have hsearch : Fresh hasToml rootPath roots (r.search hasToml entry).1 := by
    unfold Resolver.search
    cases hf : ((ancestors (components entry)).map collect).find? hasToml with
    | some a =>
      refine ⟨h1, h2, fun e he => ?_⟩
      rcases List.mem_cons.mp he with rfl | he
      · exact hf.symm
      · exact h3 e he
    | none =>
      have : Fresh hasToml rootPath roots { r with cache := (entry, none) :: r.cache } := by
        refine ⟨h1, h2, fun e he => ?_⟩
        rcases List.mem_cons.mp he with rfl | he
        · exact hf.symm
        · exact h3 e he
      simp only []
      split <;> exact this
  unfold Resolver.root
  split
  · exact ⟨h1, h2, h3⟩
  · split
    · exact ⟨h1, h2, h3⟩
    · split
      · exact ⟨h1, h2, h3⟩
      · split
        · exact ⟨h1, h2, h3⟩
        · exact hsearch
      · exact hsearch

theorem settled_fresh {hasToml : HasToml} {rootPath : Option Text} {roots : List Text} {r : Resolver}
    (h : SettledIn hasToml rootPath roots r) : Fresh hasToml rootPath roots r := by
  induction h with
  | init => exact ⟨rfl, rfl, by intro e h; cases h⟩
  | step _ entry _ ih => exact root_fresh ih entry

/-- What `root` answers. -/
theorem root_answer {hasToml : HasToml} {rootPath : Option Text} {roots : List Text} {r : Resolver}
    (h : Fresh hasToml rootPath roots r) {entry : Text} {ns : List Text} {n : Text}
    (he : components entry = .root :: names (ns ++ [n])) :
    (∃ x, rootPath = some x ∧ (r.root hasToml entry).2 = some x) ∨
    (∃ x, rootPath = none ∧ roots.find? (fun root => (components root).isPrefixOf (components entry)) = some x ∧
      (r.root hasToml entry).2 = some x) ∨
    (rootPath = none ∧ roots.find? (fun root => (components root).isPrefixOf (components entry)) = none ∧
      ((∃ d, ((ancestors (components entry)).map collect).find? hasToml = some d ∧ (r.root hasToml entry).2 = some d) ∨
       (((ancestors (components entry)).map collect).find? hasToml = none ∧
        ((r.root hasToml entry).2 = none ∨ (r.root hasToml entry).2 = parent entry)))) := by
  obtain ⟨h1, h2, h3⟩ := h
  cases hrp : rootPath with
  | some x => exact .inl ⟨x, rfl, by unfold Resolver.root; rw [h1, hrp]⟩
  | none =>
    refine .inr ?_
    cases hfr : roots.find? (fun root => (components root).isPrefixOf (components entry)) with
    | some x => exact .inl ⟨x, rfl, rfl, by unfold Resolver.root; rw [h1, hrp, h2]; simp only [hfr]⟩
    | none =>
      refine .inr ⟨rfl, rfl, ?_⟩
      have hr : (r.root hasToml entry).2 = (match r.cached entry with
          | some none => (r, none)
          | some (some c) => if hasToml c then (r, some c) else r.search hasToml entry
          | none => r.search hasToml entry).2 := by
        unfold Resolver.root; rw [h1, hrp, h2]; simp only [hfr]; rfl
      have hsearch : (∃ d, ((ancestors (components entry)).map collect).find? hasToml = some d ∧ (r.search hasToml entry).2 = some d) ∨
          (((ancestors (components entry)).map collect).find? hasToml = none ∧ (r.search hasToml entry).2 = parent entry) := by
        unfold Resolver.search
        cases hf : ((ancestors (components entry)).map collect).find? hasToml with
        | some d => exact .inl ⟨d, rfl, rfl⟩
        | none => exact .inr ⟨rfl, by simp only [(parent_names he).1]⟩
      have hcached : ∀ o, r.cached entry = some o → o = ((ancestors (components entry)).map collect).find? hasToml := by
        intro o ho
        unfold Resolver.cached at ho
        obtain ⟨e, hm, rfl⟩ := Option.map_eq_some_iff.mp ho
        have hc : components e.1 = components entry := by simpa using List.find?_some hm
        rw [← hc]
        exact h3 e (List.mem_of_find?_eq_some hm)
      rw [hr]
      cases hc : r.cached entry with
      | none =>
        rcases hsearch with ⟨d, a, b⟩ | ⟨a, b⟩
        · exact .inl ⟨d, a, b⟩
        · exact .inr ⟨a, .inr b⟩
      | some o =>
        cases o with
        | none => exact .inr ⟨(hcached none hc).symm, .inl rfl⟩
        | some c =>
          have hf := (hcached (some c) hc).symm
          have ht : hasToml c = true := List.find?_some hf
          exact .inl ⟨c, hf, by simp [ht]⟩

/-- **C67, which root** (partial: while no `typst.toml` appears or goes). Whatever files were opened before, an opened file
gets as its root the configured root, if it is in it, or its directory; without a configured root the first folder of the
workspace that it is in; outside of the workspace its package; outside of any package its directory. -/
theorem root_of_file_partial {hasToml : HasToml} {rootPath : Option Text} {roots : List Text} {r : Resolver}
    (hr : SettledIn hasToml rootPath roots r) {i i' : Interner} {entry : Text} {ns : List Text} {n : Text}
    (he : components entry = .root :: (ns ++ [n]).map Comp.normal) {e : EntryState}
    (h : (r.resolve hasToml i entry).2 = some (i', e)) :
    ∃ x, e.root = some x ∧ RootFor rootPath roots hasToml entry (ns ++ [n]) x := by
  have hfresh := settled_fresh hr
  have he' : components entry = .root :: names (ns ++ [n]) := he
  have hg : ∀ c ∈ names (ns ++ [n]), GoodComp c := fun c hc => components_good (by rw [he']; exact List.mem_cons_of_mem _ hc)
  obtain ⟨hpar, hfn⟩ := parent_names he'
  have hup : upTo (ns ++ [n]) ((ns ++ [n]).length - 1) = collect (.root :: names ns) := by
    unfold upTo; simp [names]
  have byParent : ∀ {i'} {e : EntryState},
      (newRootedByParent i entry).map (fun (i, e) => (i, e.getD ⟨r.defaultRoot, none⟩)) = some (i', e) →
      e.root = some (upTo (ns ++ [n]) ((ns ++ [n]).length - 1)) := by
    intro i' e h
    unfold newRootedByParent at h
    simp only [hfn, hpar] at h
    obtain ⟨⟨i1, o⟩, hw, ee⟩ := Option.map_eq_some_iff.mp h
    obtain ⟨⟨i2, f⟩, hw2, e2⟩ := Option.map_eq_some_iff.mp hw
    cases e2
    cases ee
    rw [hup]; rfl
  have hstrip : ∀ x, InDir x entry → ∃ s, stripPrefix entry x = some s := by
    intro x hx
    exact ⟨_, by unfold stripPrefix; rw [if_pos (List.isPrefixOf_iff_prefix.mpr hx)]⟩
  have hnostrip : ∀ x, ¬ InDir x entry → stripPrefix entry x = none := by
    intro x hx
    unfold stripPrefix; rw [if_neg (fun h => hx (List.isPrefixOf_iff_prefix.mp h))]
  have rooted : ∀ x, (r.root hasToml entry).2 = some x → InDir x entry → e.root = some x := by
    intro x hx hin
    obtain ⟨s, hs⟩ := hstrip x hin
    simp only [Resolver.resolve, Resolver.resolveWithRoot, hx, Option.bind_some, hs, Option.map_some] at h
    unfold newRooted at h
    obtain ⟨⟨i1, f⟩, hw, ee⟩ := Option.map_eq_some_iff.mp h
    cases ee
    rfl
  have unrooted : ((r.root hasToml entry).2 = none ∨ ∃ x, (r.root hasToml entry).2 = some x ∧ ¬ InDir x entry) →
      e.root = some (upTo (ns ++ [n]) ((ns ++ [n]).length - 1)) := by
    rintro (hx | ⟨x, hx, hin⟩)
    · simp only [Resolver.resolve, Resolver.resolveWithRoot, hx, Option.bind_none] at h
      exact byParent h
    · simp only [Resolver.resolve, Resolver.resolveWithRoot, hx, Option.bind_some, hnostrip x hin, Option.map_none] at h
      exact byParent h
  rcases root_answer hfresh he' with ⟨x, h1, h2⟩ | ⟨x, h1, h2, h3⟩ | ⟨h1, h2, h3⟩
  · by_cases hin : InDir x entry
    · exact ⟨x, rooted x h2 hin, .configured x h1 hin⟩
    · exact ⟨_, unrooted (.inr ⟨x, h2, hin⟩), .outside x h1 hin⟩
  · obtain ⟨hp, pre, post, hroots, hpre⟩ := List.find?_eq_some_iff_append.mp h2
    have hin : InDir x entry := List.isPrefixOf_iff_prefix.mp (by simpa using hp)
    refine ⟨x, rooted x h3 hin, .folder pre x post h1 hroots (fun y hy hc => ?_) hin⟩
    have := hpre y hy
    simp [List.isPrefixOf_iff_prefix.mpr hc] at this
  · have hno : ∀ y ∈ roots, ¬ InDir y entry := by
      intro y hy hc
      have := List.find?_eq_none.mp h2 y hy
      exact this (by simp [List.isPrefixOf_iff_prefix.mpr hc])
    rcases h3 with ⟨d, hf, hd⟩ | ⟨hf, hd⟩
    · have hnear := (find_package hasToml he').1 d hf
      refine ⟨d, rooted d hd ?_, .package d h1 hno hnear⟩
      obtain ⟨k, hk, rfl, _⟩ := hnear
      unfold InDir upTo
      have := components_collect_abs (ns := (ns ++ [n]).take k)
        (fun c hc => hg c (by
          obtain ⟨m, hm, rfl⟩ := List.mem_map.mp hc
          exact List.mem_map.mpr ⟨m, List.mem_of_mem_take hm, rfl⟩))
      unfold names at this
      rw [this, he, List.map_take]
      exact (List.prefix_cons_inj _).mpr (List.take_prefix _ _)
    · refine ⟨_, ?_, .directory h1 hno ((find_package hasToml he').2 hf)⟩
      rcases hd with hd | hd
      · exact unrooted (.inl hd)
      · rw [hpar, ← hup] at hd
        by_cases hin : InDir (upTo (ns ++ [n]) ((ns ++ [n]).length - 1)) entry
        · exact rooted _ hd hin
        · exact unrooted (.inr ⟨_, hd, hin⟩)

/-- Meets the hypotheses: a file outside of the workspace, in a package, opened after another file of it. -/
example :
    let pkg : HasToml := fun d => d == "/pkg".toList
    let r : Resolver := ((⟨none, ["/ws".toList], []⟩ : Resolver).root pkg "/pkg/b.typ".toList).1
    (r.resolve pkg .init "/pkg/src/a.typ".toList).2.map (fun (_, e) => e.root) = some (some "/pkg".toList) ∧
    components "/pkg/src/a.typ".toList = .root :: (["pkg".toList, "src".toList] ++ ["a.typ".toList]).map Comp.normal := by
  decide +kernel

/-- **C67 fails** when a `typst.toml` appears: a file that was opened before keeps its directory as its root, while after a
restart its package is. -/
theorem new_package_unnoticed :
    let file := "/pkg/src/a.typ".toList
    let before : HasToml := fun _ => false
    let after : HasToml := fun d => d == "/pkg".toList
    let r : Resolver := ((⟨none, [], []⟩ : Resolver).resolve before .init file).1
    (r.resolve after .init file).2.map (fun (_, e) => e.root) = some (some "/pkg/src".toList) ∧
    ((⟨none, [], []⟩ : Resolver).resolve after .init file).2.map (fun (_, e) => e.root) = some (some "/pkg".toList) := by
  decide +kernel

/-- **C67 fails** when a nearer `typst.toml` appears. -/
theorem nearer_package_unnoticed :
    let file := "/pkg/src/a.typ".toList
    let before : HasToml := fun d => d == "/pkg".toList
    let after : HasToml := fun d => d == "/pkg".toList || d == "/pkg/src".toList
    let r : Resolver := ((⟨none, [], []⟩ : Resolver).resolve before .init file).1
    (r.resolve after .init file).2.map (fun (_, e) => e.root) = some (some "/pkg".toList) ∧
    ((⟨none, [], []⟩ : Resolver).resolve after .init file).2.map (fun (_, e) => e.root) = some (some "/pkg/src".toList) := by
  decide +kernel

/-- **C67, a package that goes** is noticed: when the directory that was the root of a file has no `typst.toml` any more,
the file gets the root it gets after a restart. -/
theorem gone_package_noticed (hasToml : HasToml) (r : Resolver) (entry d : Text) (hd : hasToml d = false)
    (hc : r.cached entry = some (some d)) :
    (r.root hasToml entry).2 = ((⟨r.rootPath, r.roots, []⟩ : Resolver).root hasToml entry).2 := by
  have hs : (r.search hasToml entry).2 = ((⟨r.rootPath, r.roots, []⟩ : Resolver).search hasToml entry).2 := by
    unfold Resolver.search
    split
    · rfl
    · simp only []
      split <;> rfl
  unfold Resolver.root
  simp only []
  split
  · rfl
  · split
    · rfl
    · rw [hc]
      simp only [hd, Bool.false_eq_true, if_false]
      exact hs

/-! ## Files that are not in a root -/

/-- **C57**: an untitled file of a root is not looked for on disk, nor is one without a root; and just the files of packages
are those that are looked for in a package. -/
theorem not_on_disk (i : Interner) (pkg : PackageSpec → Option Text) (v : List Comp) (id : Nat) (h : id ≤ u16Max) (f : FileId) :
    pathForId i pkg ⟨some (wsUntitled id), v⟩ = .rootless ∧ pathForId i pkg ⟨none, v⟩ = .rootless ∧
      (isPackageFile f = true ↔ resolve f = .package) := by
  have hp : fromPackageName (wsUntitled id).name = some id :=
    RustNum.parse_print (b := 10) (by omega) (by omega) u16Max id h
  refine ⟨?_, rfl, ?_⟩
  · have : resolve ⟨some (wsUntitled id), v⟩ = .untitledRooted id := by
      unfold resolve
      simp only [hp]
      rfl
    rw [pathForId, this]
  · unfold isPackageFile resolve
    cases f.package with
    | none => simp
    | some p =>
      simp only [Option.any_some, decide_eq_true_eq]
      by_cases hns : p.ns = wsNs
      · simp only [hns, ne_eq, not_true_eq_false, if_true, false_iff]
        split
        · simp
        · split <;> simp
      · simp [hns]

end Tinymist.Workspace
