import Verif.Props.Workspace
/-!
# C57: the entry resolved for a file is that file
-/
namespace Tinymist.Workspace
open Paths

theorem within_names (d : Dir) (ns : List Text) : within d (names ns) = some (d ++ ns) := by
  induction ns generalizing d with
  | nil => simp [names, within]
  | cons n ns ih => rw [names, List.map_cons, within, ih]; simp

theorem components_collect_names {ns : List Text} (h : ∀ c ∈ names ns, GoodComp c) :
    components (collect (names ns)) = names ns := by
  cases ns with
  | nil => decide
  | cons n ns =>
    refine components_collect _ _ (h _ (List.mem_cons_self ..)) ?_
    intro c hc
    refine ⟨h c (List.mem_cons_of_mem _ hc), ?_⟩
    obtain ⟨_, _, rfl⟩ := List.mem_map.mp hc
    exact ⟨by simp, by simp⟩

theorem components_collect_abs {ns : List Text} (h : ∀ c ∈ names ns, GoodComp c) :
    components (collect (.root :: names ns)) = .root :: names ns := by
  refine components_collect _ _ (by intro n e; cases e) ?_
  intro c hc
  refine ⟨h c hc, ?_⟩
  obtain ⟨_, _, rfl⟩ := List.mem_map.mp hc
  exact ⟨by simp, by simp⟩

/-- An absolute path without `..`: a slash and names. -/
theorem absolute_names {s : Text} (h : isAbsolute s = true) (hp : Comp.parent ∉ components s) :
    ∃ ns, components s = .root :: names ns ∧ ∀ c ∈ names ns, GoodComp c := by
  rcases components_cases s with ⟨_, e⟩ | ⟨h', _⟩ | ⟨h', _⟩
  · have key : ∀ cs : List Comp, (∀ c ∈ cs, c ≠ .parent ∧ c ≠ .root ∧ c ≠ .cur) → ∃ ns, cs = names ns := by
      intro cs
      induction cs with
      | nil => intro _; exact ⟨[], rfl⟩
      | cons c cs ih =>
        intro hc
        obtain ⟨ns, rfl⟩ := ih fun c h => hc c (List.mem_cons_of_mem _ h)
        have := hc c (List.mem_cons_self ..)
        cases c with
        | normal n => exact ⟨n :: ns, rfl⟩
        | root => exact (this.2.1 rfl).elim
        | cur => exact (this.2.2 rfl).elim
        | parent => exact (this.1 rfl).elim
    have hg : ∀ c ∈ components s, GoodComp c := fun c => components_good
    obtain ⟨ns, en⟩ := key (body (Pages.split '/' s)) fun c hc =>
      ⟨fun e' => hp (by rw [e, ← e']; exact List.mem_cons_of_mem _ hc), body_inner hc⟩
    refine ⟨ns, by rw [e, en], ?_⟩
    intro c hc
    exact hg c (by rw [e, en]; exact List.mem_cons_of_mem _ hc)
  · rw [h] at h'; cases h'
  · rw [h] at h'; cases h'

theorem stripPrefix_names {entry root : Text} {ns : List Text} (he : components entry = .root :: names ns)
    (hg : ∀ c ∈ names ns, GoodComp c) (hr : isAbsolute root = true) {s : Text} (hs : stripPrefix entry root = some s) :
    ∃ ms rest, ns = ms ++ rest ∧ components root = .root :: names ms ∧ s = collect (names rest) ∧
      components s = names rest := by
  rw [stripPrefix] at hs
  split at hs
  · rename_i hpre
    injection hs with hs
    have hpre' := List.isPrefixOf_iff_prefix.mp hpre
    have hhead := components_absolute hr
    obtain ⟨cs, ec⟩ : ∃ cs, components root = .root :: cs := by
      cases hc : components root with
      | nil => rw [hc] at hhead; cases hhead
      | cons c cs => rw [hc] at hhead; cases hhead; exact ⟨cs, rfl⟩
    obtain ⟨tl, et⟩ := hpre'
    rw [ec, he] at et
    injection et with _ et
    obtain ⟨ms, rest, e1, e2, e3⟩ := List.map_eq_append_iff.mp et.symm
    have hs' : s = collect (names rest) := by
      rw [← hs, ec, he, ← et]
      simp [e3]
    refine ⟨ms, rest, e1, by rw [ec, ← e2], hs', ?_⟩
    rw [hs']
    refine components_collect_names ?_
    intro c hc
    exact hg c (by rw [e1, names, List.map_append]; exact List.mem_append_right _ hc)
  · cases hs

/-- What an entry should be: its main file is the file asked for, inside its root. -/
structure Right (pkg : PackageSpec → Option Text) (i : Interner) (e : EntryState) (entry : Text) : Prop where
  file : ∃ f t, e.main = some f ∧ pathForId i pkg f = .resolved t ∧ denotes [] t = denotes [] entry
  root : ∃ rt, e.root = some rt ∧ denotes [] rt <+: denotes [] entry

theorem newRooted_right {i i' : Interner} (hi : Reachable i) {root s entry : Text} {ms rest ns : List Text}
    (h1 : components root = .root :: names ms) (h2 : components s = names rest)
    (h3 : components entry = .root :: names ns) (h4 : ns = ms ++ rest) {e : EntryState}
    (h : newRooted i root (vpathNew s) = some (i', e)) (pkg : PackageSpec → Option Text) : Right pkg i' e entry := by
  rw [newRooted] at h
  obtain ⟨⟨i1, f⟩, hw, ee⟩ := Option.map_eq_some_iff.mp h
  injection ee with e1 e2
  subst e1; subst e2
  obtain ⟨a, _⟩ := file_id_denotes hi hw .refl pkg
  obtain ⟨t, ht, hd⟩ := a rest (by rw [h2, within_names]; rfl)
  have hroot : denotes [] root = ms := denotes_absolute [] ms h1
  have hentry : denotes [] entry = ns := denotes_absolute [] ns h3
  refine ⟨⟨f, t, rfl, ht, ?_⟩, ⟨root, rfl, ?_⟩⟩
  · rw [hd, hroot, hentry, h4]
  · rw [hroot, hentry, h4]; exact List.prefix_append _ _

theorem parent_names {entry : Text} {ns : List Text} {n : Text} (he : components entry = .root :: names (ns ++ [n])) :
    parent entry = some (collect (.root :: names ns)) ∧ fileName entry = some n := by
  have e : Comp.root :: names (ns ++ [n]) = (Comp.root :: names ns) ++ [.normal n] := by simp [names]
  constructor
  · rw [parent, he, e, List.getLast?_concat]
    simp only [List.dropLast_concat]
  · rw [fileName, he, e, List.getLast?_concat]

theorem newRootedByParent_right {i i' : Interner} (hi : Reachable i) {entry : Text} {ns : List Text} {n : Text}
    (he : components entry = .root :: names (ns ++ [n])) (hg : ∀ c ∈ names (ns ++ [n]), GoodComp c)
    {e : Option EntryState} (h : newRootedByParent i entry = some (i', e)) (pkg : PackageSpec → Option Text) :
    ∃ e', e = some e' ∧ Right pkg i' e' entry ∧ newRooted i (collect (.root :: names ns)) (vpathNew n) = some (i', e') := by
  obtain ⟨hp, hf⟩ := parent_names he
  rw [newRootedByParent, hf] at h
  simp only [hp] at h
  obtain ⟨⟨i1, f⟩, hw, ee⟩ := Option.map_eq_some_iff.mp h
  injection ee with e1 e2
  subst e1; subst e2
  have hn : newRooted i (collect (.root :: names ns)) (vpathNew n) = some (i1, ⟨some (collect (.root :: names ns)), some f⟩) := by
    rw [newRooted, hw]; rfl
  have hgn : ∀ c ∈ names ns, GoodComp c := by
    intro c hc
    exact hg c (by rw [names, List.map_append]; exact List.mem_append_left _ hc)
  have hgl : GoodName n := hg (.normal n) (by simp [names]) n rfl
  refine ⟨_, rfl, ?_, hn⟩
  refine newRooted_right hi (components_collect_abs hgn) (rest := [n]) ?_ he rfl hn pkg
  exact components_compText (c := .normal n) (fun m e => by cases e; exact hgl)

theorem ancestors_absolute {cs : List Comp} (h : cs.head? = some .root) {a : List Comp} (ha : a ∈ ancestors cs) :
    a <+: cs ∧ a.head? = some .root := by
  fun_induction ancestors cs with
  | case1 => cases h
  | case2 cs hne hl =>
    rw [List.mem_singleton] at ha
    subst ha
    exact ⟨List.prefix_rfl, h⟩
  | case3 cs hne hl ih =>
    rcases List.mem_cons.mp ha with rfl | ha
    · exact ⟨List.prefix_rfl, h⟩
    · have h' : cs.dropLast.head? = some .root := by
        match cs, h, hl with
        | [c], h, hl => exact (hl h).elim
        | c :: d :: cs, h, _ => exact h
      obtain ⟨h1, h2⟩ := ih h' ha
      exact ⟨h1.trans (List.dropLast_prefix _), h2⟩

theorem collect_prefix_absolute {entry : Text} (he : isAbsolute entry = true) {a : List Comp}
    (h1 : a <+: components entry) (h2 : a.head? = some .root) : isAbsolute (collect a) = true := by
  cases a with
  | nil => cases h2
  | cons c cs =>
    cases h2
    rcases components_cases entry with ⟨_, e⟩ | ⟨h', _⟩ | ⟨h', _⟩
    · rw [e] at h1
      obtain ⟨tl, et⟩ := h1
      injection et with _ et
      rw [isAbsolute_iff, components_collect]
      · rfl
      · intro n e; cases e
      · intro c hc
        have : c ∈ body (Pages.split '/' entry) := by rw [← et]; exact List.mem_append_left _ hc
        exact body_ok entry c this
    · rw [he] at h'; cases h'
    · rw [he] at h'; cases h'

/-- Everything in the cache is absolute, and the configuration stays as it is. -/
def CacheOk (rootPath : Option Text) (roots : List Text) (r : Resolver) : Prop :=
  r.rootPath = rootPath ∧ r.roots = roots ∧ ∀ e ∈ r.cache, ∀ a, e.2 = some a → isAbsolute a = true

theorem search_ok {rootPath : Option Text} {roots : List Text} {r : Resolver} (h : CacheOk rootPath roots r)
    (hasToml : HasToml) {entry : Text} (he : isAbsolute entry = true) :
    CacheOk rootPath roots (r.search hasToml entry).1 := by
  obtain ⟨h1, h2, h3⟩ := h
  rw [Resolver.search]
  cases hf : ((ancestors (components entry)).map collect).find? hasToml with
  | some a =>
    refine ⟨h1, h2, ?_⟩
    intro e hm x hx
    rcases List.mem_cons.mp hm with rfl | hm
    · injection hx with hx
      subst hx
      obtain ⟨cs, hcs, rfl⟩ := List.mem_map.mp (List.mem_of_find?_eq_some hf)
      obtain ⟨h1, h2⟩ := ancestors_absolute (components_absolute he) hcs
      exact collect_prefix_absolute he h1 h2
    · exact h3 e hm x hx
  | none =>
    have : ∀ e ∈ (entry, none) :: r.cache, ∀ a, e.2 = some a → isAbsolute a = true := by
      intro e hm x hx
      rcases List.mem_cons.mp hm with rfl | hm
      · cases hx
      · exact h3 e hm x hx
    simp only
    cases parent entry with
    | some p => exact ⟨h1, h2, this⟩
    | none => exact ⟨h1, h2, this⟩

theorem root_ok {rootPath : Option Text} {roots : List Text} {r : Resolver} (h : CacheOk rootPath roots r)
    (hasToml : HasToml) {entry : Text} (he : isAbsolute entry = true) :
    CacheOk rootPath roots (r.root hasToml entry).1 := by
  rw [Resolver.root]
  split
  · exact h
  · split
    · exact h
    · split
      · exact h
      · split
        · exact h
        · exact search_ok h hasToml he
      · exact search_ok h hasToml he

theorem resolverReachable_ok {rootPath : Option Text} {roots : List Text} {r : Resolver}
    (h : ResolverReachable rootPath roots r) : CacheOk rootPath roots r := by
  induction h with
  | init => exact ⟨rfl, rfl, by intro e h; cases h⟩
  | step _ hasToml entry he ih => exact root_ok ih hasToml he

theorem parent_absolute {entry p : Text} {ns : List Text} {n : Text}
    (he : components entry = .root :: names (ns ++ [n])) (hg : ∀ c ∈ names (ns ++ [n]), GoodComp c)
    (h : parent entry = some p) : isAbsolute p = true := by
  rw [(parent_names he).1] at h
  injection h with h
  rw [← h, isAbsolute_iff, components_collect_abs]
  · rfl
  · intro c hc
    exact hg c (by rw [names, List.map_append]; exact List.mem_append_left _ hc)

theorem root_absolute {rootPath : Option Text} {roots : List Text} {r : Resolver} (h : CacheOk rootPath roots r)
    (hp : ∀ x, rootPath = some x → isAbsolute x = true) (hs : ∀ x ∈ roots, isAbsolute x = true)
    (hasToml : HasToml) {entry : Text} {ns : List Text} {n : Text}
    (he : components entry = .root :: names (ns ++ [n])) (hg : ∀ c ∈ names (ns ++ [n]), GoodComp c)
    {x : Text} (hx : (r.root hasToml entry).2 = some x) : isAbsolute x = true := by
  have hea : isAbsolute entry = true := by rw [isAbsolute_iff, he]; rfl
  have hsearch : ∀ {x}, (r.search hasToml entry).2 = some x → isAbsolute x = true := by
    intro x hx
    rw [Resolver.search] at hx
    cases hf : ((ancestors (components entry)).map collect).find? hasToml with
    | some a =>
      rw [hf] at hx
      injection hx with hx
      subst hx
      obtain ⟨cs, hcs, rfl⟩ := List.mem_map.mp (List.mem_of_find?_eq_some hf)
      obtain ⟨h1, h2⟩ := ancestors_absolute (components_absolute hea) hcs
      exact collect_prefix_absolute hea h1 h2
    | none =>
      rw [hf] at hx
      simp only [(parent_names he).1] at hx
      injection hx with hx
      exact parent_absolute he hg (by rw [(parent_names he).1, hx])
  obtain ⟨h1, h2, h3⟩ := h
  rw [Resolver.root] at hx
  cases hrp : r.rootPath with
  | some y => rw [hrp] at hx; injection hx with hx; exact hp x (by rw [← h1, hrp, hx])
  | none =>
    rw [hrp] at hx
    simp only at hx
    cases hfr : r.roots.find? fun root => (components root).isPrefixOf (components entry) with
    | some y =>
      rw [hfr] at hx
      injection hx with hx
      subst hx
      exact hs _ (h2 ▸ List.mem_of_find?_eq_some hfr)
    | none =>
      rw [hfr] at hx
      simp only at hx
      cases hc : r.cached entry with
      | none => rw [hc] at hx; exact hsearch hx
      | some o =>
        cases o with
        | none => rw [hc] at hx; cases hx
        | some c =>
          rw [hc] at hx
          simp only at hx
          split at hx
          · injection hx with hx
            subst hx
            obtain ⟨e, hm, e2⟩ := Option.map_eq_some_iff.mp hc
            exact h3 e (List.mem_of_find?_eq_some hm) _ e2
          · exact hsearch hx

/-- **C57**: whatever is configured, cached and opened before, the entry resolved for an absolute path to a file
(without `..`) has that file as its main file, inside its root. -/
theorem entry_is_the_file {rootPath : Option Text} {roots : List Text} {r : Resolver}
    (hr : ResolverReachable rootPath roots r) (hp : ∀ x, rootPath = some x → isAbsolute x = true)
    (hs : ∀ x ∈ roots, isAbsolute x = true) {i i' : Interner} (hi : Reachable i) (hasToml : HasToml) {entry : Text}
    (ha : isAbsolute entry = true) (hd : Comp.parent ∉ components entry) (hf : fileName entry ≠ none)
    {e : EntryState} (h : (r.resolve hasToml i entry).2 = some (i', e)) (pkg : PackageSpec → Option Text) :
    Right pkg i' e entry := by
  obtain ⟨ns, he, hg⟩ := absolute_names ha hd
  rcases List.eq_nil_or_concat ns with rfl | ⟨ms, n, rfl⟩
  · exact (hf (by rw [fileName, he]; rfl)).elim
  rw [List.concat_eq_append] at he hg
  have hok := resolverReachable_ok hr
  simp only [Resolver.resolve, Resolver.resolveWithRoot] at h
  cases hroot : (r.root hasToml entry).2 with
  | none =>
    rw [hroot] at h
    simp only [Option.bind_none] at h
    obtain ⟨⟨i1, o⟩, hw, ee⟩ := Option.map_eq_some_iff.mp h
    obtain ⟨e', rfl, hright, _⟩ := newRootedByParent_right hi he hg hw pkg
    injection ee with e1 e2
    subst e1; subst e2
    exact hright
  | some root =>
    rw [hroot] at h
    simp only [Option.bind_some] at h
    cases hst : stripPrefix entry root with
    | none =>
      rw [hst] at h
      simp only [Option.map_none] at h
      obtain ⟨⟨i1, o⟩, hw, ee⟩ := Option.map_eq_some_iff.mp h
      obtain ⟨e', rfl, hright, _⟩ := newRootedByParent_right hi he hg hw pkg
      injection ee with e1 e2
      subst e1; subst e2
      exact hright
    | some s =>
      rw [hst] at h
      simp only [Option.map_some] at h
      have hra := root_absolute hok hp hs hasToml he hg hroot
      obtain ⟨xs, rest, e1, e2, _, e4⟩ := stripPrefix_names he hg hra hst
      exact newRooted_right hi e2 e4 he e1 h pkg

example :
    ((⟨none, ["/ws".toList], []⟩ : Resolver).resolve (fun d => d == "/pkg".toList) .init "/pkg/src/a.typ".toList).2.map
      (fun (i, e) => (e.root == some "/pkg".toList,
        e.main.map (pathForId i fun _ => none) == some (.resolved "/pkg/src/a.typ".toList))) = some (true, true) := by
  decide +kernel

/-- Resolving fails only when the table of workspace ids is full. -/
theorem entry_resolves (r : Resolver) {i : Interner} (hi : i.fromId.length ≤ u16Max) (hasToml : HasToml) (entry : Text) :
    (r.resolve hasToml i entry).2 ≠ none := by
  have hw : ∀ root, workspaceId i root ≠ none := by
    intro root
    rw [workspaceId]
    split
    · simp
    · rw [if_pos hi]; simp
  have hwf : ∀ root v, workspaceFile i root v ≠ none := by
    intro root v
    cases root with
    | none => simp [workspaceFile]
    | some root => simpa [workspaceFile] using hw root
  simp only [Resolver.resolve, Resolver.resolveWithRoot]
  split
  · simpa [newRooted] using hwf _ _
  · have : newRootedByParent i entry ≠ none := by
      rw [newRootedByParent]
      split
      · simp
      · simpa using hwf _ _
    simpa using this

end Tinymist.Workspace
