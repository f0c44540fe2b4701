import Verif.Lemmas.Workspace
/-!
# C24, C57, C58: workspace ids, entries and what documents can name
-/
namespace Tinymist.Workspace
open Paths RustNum

theorem within_mem {cs : List Comp} {d ns : Dir} (h : within d cs = some ns) {n : Text} (hn : n ∈ ns) :
    n ∈ d ∨ Comp.normal n ∈ cs := by
  induction cs generalizing d with
  | nil => injection h with h; exact Or.inl (h ▸ hn)
  | cons c cs ih =>
    have lift : (n ∈ d ∨ Comp.normal n ∈ cs) → n ∈ d ∨ Comp.normal n ∈ c :: cs := by
      rintro (h | h)
      · exact Or.inl h
      · exact Or.inr (List.mem_cons_of_mem _ h)
    cases c with
    | root =>
      rcases ih h with h | h
      · cases h
      · exact lift (Or.inr h)
    | cur => exact lift (ih h)
    | normal m =>
      rcases ih h with h | h
      · rcases List.mem_append.mp h with h | h
        · exact Or.inl h
        · rw [List.mem_singleton] at h; subst h; exact Or.inr (List.mem_cons_self ..)
      · exact lift (Or.inr h)
    | parent =>
      rw [within] at h
      split at h
      · cases h
      · rcases ih h with h | h
        · exact Or.inl (List.dropLast_subset _ h)
        · exact lift (Or.inr h)

theorem within_good {s : Text} {ns : Dir} (h : within [] (components s) = some ns) :
    ∀ c ∈ names ns, GoodComp c := by
  intro c hc
  obtain ⟨n, hn, rfl⟩ := List.mem_map.mp hc
  rcases within_mem h hn with h | h
  · cases h
  · exact components_good h

theorem root_only {t : Text} (h : IsClean t) (hr : (components t).getLast? = some .root) : components t = [.root] := by
  obtain ⟨s, rfl⟩ := h
  rw [components_clean] at hr ⊢
  by_cases h0 : cleanComps (components s) = []
  · rw [if_pos h0] at hr; cases hr
  · rw [if_neg h0] at hr ⊢
    rcases cleanComps_canon s with ⟨ns, e⟩ | ⟨k, ns, e⟩
    · rw [e] at hr ⊢
      rcases List.eq_nil_or_concat ns with rfl | ⟨ns', n, rfl⟩
      · rfl
      · have := List.mem_of_getLast? hr
        rw [List.concat_eq_append] at hr
        rw [show Comp.root :: List.map Comp.normal (ns' ++ [n]) = (Comp.root :: List.map Comp.normal ns') ++ [.normal n]
          by simp, List.getLast?_concat] at hr
        cases hr
    · have := List.mem_of_getLast? hr
      rw [e] at this
      rcases List.mem_append.mp this with h | h
      · have := (List.mem_replicate.mp h).2; cases this
      · obtain ⟨_, _, h⟩ := List.mem_map.mp h; cases h

/-- Resolving a virtual path in a clean root. -/
theorem vpathResolve_spec {root : Text} (hc : IsClean root) (s : Text) :
    (∀ ns, within [] (components s) = some ns →
      ∃ t, vpathResolve root (vpathNew s) = some t ∧ ∀ d, denotes d t = denotes d root ++ ns) ∧
    (within [] (components s) = none → ¬ Same root ['/'] → vpathResolve root (vpathNew s) = none) ∧
    (∀ t, vpathResolve root (vpathNew s) = some t → ∀ d, denotes d root <+: denotes d t) := by
  have hg : ∀ c ∈ components root, GoodComp c := fun c => components_good
  have inside : ∀ ns, within [] (components s) = some ns →
      ∃ t, vpathResolve root (vpathNew s) = some t ∧ ∀ d, denotes d t = denotes d root ++ ns := by
    intro ns h
    refine ⟨collect (components root ++ names ns), ?_, ?_⟩
    · rw [vpathResolve, vpathNew_within s ns h, resolveLoop_names]; rfl
    · intro d
      rw [denotes_collect, walk_append, walk_names]
      · rfl
      · intro c hc'
        rcases List.mem_append.mp hc' with h' | h'
        · exact hg c h'
        · exact within_good h c h'
  have notRoot : (components root).getLast? ≠ some .root → within [] (components s) = none →
      vpathResolve root (vpathNew s) = none := by
    intro hr h
    obtain ⟨k, ms, hk, e⟩ := vpathNew_escapes s h
    obtain ⟨k', rfl⟩ : ∃ k', k = k' + 1 := ⟨k - 1, by omega⟩
    rw [vpathResolve, e, List.replicate_succ, List.cons_append]
    have := resolveLoop_parent (components root) hg (components_clean_ne_nil hc) hr
      (List.replicate k' Comp.parent ++ names ms)
    rw [collect_components hc] at this
    rw [this]; rfl
  have isRoot : (components root).getLast? = some .root → Same root ['/'] := by
    intro hr d
    rw [denotes, root_only hc hr]; rfl
  refine ⟨inside, ?_, ?_⟩
  · intro h hne
    exact notRoot (fun hr => hne (isRoot hr)) h
  · intro t ht d
    cases h : within [] (components s) with
    | some ns =>
      obtain ⟨t', h1, h2⟩ := inside ns h
      rw [ht] at h1
      injection h1 with h1
      rw [h1, h2]
      exact List.prefix_append _ _
    | none =>
      by_cases hr : (components root).getLast? = some .root
      · rw [isRoot hr d]
        exact ⟨denotes d t, rfl⟩
      · rw [notRoot hr h] at ht; cases ht

/-- **C24**: in every session, the file id made for a root and a path denotes, from then on, the path followed inside
the root; a path that leads above the root is denied (unless the root is the file system root). -/
theorem file_id_denotes {i i' j : Interner} {root s : Text} {f : FileId} (hi : Reachable i)
    (h : workspaceFile i (some root) (vpathNew s) = some (i', f)) (hl : Later i' j)
    (pkg : PackageSpec → Option Text) :
    (∀ ns, within [] (components s) = some ns →
      ∃ t, pathForId j pkg f = .resolved t ∧ ∀ d, denotes d t = denotes d root ++ ns) ∧
    (within [] (components s) = none → ¬ Same root ['/'] → pathForId j pkg f = .error) := by
  rw [workspaceFile] at h
  obtain ⟨⟨i1, id⟩, hw, e⟩ := Option.map_eq_some_iff.mp h
  injection e with e1 e2
  subst e1; subst e2
  obtain ⟨h1, h2, h3, _⟩ := workspaceId_spec (reachable_inv hi) hw
  have h4 := later_path h1 hl h2
  have hp : ∀ r, vpathResolve (clean root) (vpathNew s) = r →
      pathForId j pkg ⟨some (wsPackage id), vpathNew s⟩
        = match r with | some p => .resolved p | none => .error := by
    intro r hr
    rw [pathForId, resolve_wsPackage h3]
    simp only [h4, hr]
    cases r <;> rfl
  obtain ⟨a, b, _⟩ := vpathResolve_spec ⟨root, rfl⟩ s
  constructor
  · intro ns hns
    obtain ⟨t, ht, hd⟩ := a ns hns
    refine ⟨t, by rw [hp _ ht], ?_⟩
    intro d
    rw [hd, clean_same]
  · intro hns hne
    rw [hp _ (b hns fun hs => hne fun d => by rw [← hs d, clean_same])]

example :
    (workspaceFile .init (some "/w/x/..".toList) (vpathNew "/a/../b.typ".toList)).map
      (fun (i, f) => pathForId i (fun _ => none) f == .resolved "/w/b.typ".toList) = some true := by decide +kernel

/-- **C24**: whatever file id of a workspace is resolved, with whatever `..` in its path, the file is inside the
workspace's root. -/
theorem file_inside_root {j : Interner} (hj : Reachable j) {f : FileId} {s : Text} (hv : f.vpath = vpathNew s) {id : Nat}
    (hr : resolve f = .workspace id) (pkg : PackageSpec → Option Text) {t : Text}
    (ht : pathForId j pkg f = .resolved t) :
    ∃ root, j.fromId[id]? = some root ∧ ∀ d, denotes d root <+: denotes d t := by
  rw [pathForId, hr] at ht
  simp only at ht
  cases hf : j.fromId[id]? with
  | none => rw [hf] at ht; cases ht
  | some root =>
    rw [hf] at ht
    simp only at ht
    refine ⟨root, rfl, ?_⟩
    cases hp : vpathResolve root f.vpath with
    | none => rw [hp] at ht; cases ht
    | some p =>
      rw [hp] at ht
      injection ht with ht
      subst ht
      rw [hv] at hp
      exact (vpathResolve_spec ((reachable_inv hj).toClean _ (List.mem_of_getElem? hf)) s).2.2 _ hp

/-- **C24**: ids made for different roots differ, at any two points of a session. -/
theorem ids_distinguish_roots {i i' j k : Interner} {r1 r2 : Text} {id : Nat} (hi : Reachable i)
    (h1 : workspaceId i r1 = some (i', id)) (hl : Later i' j) (h2 : workspaceId j r2 = some (k, id)) :
    Same r1 r2 := by
  obtain ⟨a, b, _, _⟩ := workspaceId_spec (reachable_inv hi) h1
  have hj := (later_inv a hl).1
  obtain ⟨_, b', _, _⟩ := workspaceId_spec hj h2
  have : Later i' k := .step hl h2
  rw [later_path a this b] at b'
  injection b' with b'
  exact (clean_eq_iff _ _).mp b'

/-- A root in normal form (repeated or trailing slashes aside). -/
def Tidy (root : Text) : Prop := components (clean root) = components root

/-- Later tables, with only requests for tidy roots in between. -/
inductive LaterTidy : Interner → Interner → Prop
  | refl {i} : LaterTidy i i
  | step {i j k root id} (h : LaterTidy i j) (ht : Tidy root) (hw : workspaceId j root = some (k, id)) : LaterTidy i k

theorem laterTidy_later {i j : Interner} (h : LaterTidy i j) : Later i j := by
  induction h with
  | refl => exact .refl
  | step _ _ hw ih => exact .step ih hw

theorem lookup_after {i i' : Interner} {root : Text} {id : Nat} (ht : Tidy root)
    (h : workspaceId i root = some (i', id)) : i'.lookup root = some id := by
  rw [workspaceId] at h
  cases hl : i.lookup root with
  | some id' =>
    rw [hl] at h
    injection h with h
    injection h with h1 h2
    rw [← h1, ← h2, hl]
  | none =>
    rw [hl] at h
    simp only at h
    split at h
    · injection h with h
      injection h with h1 h2
      rw [← h1, ← h2, Interner.lookup]
      rw [List.find?_cons_of_pos (by simpa [Tidy] using ht)]
      rfl
    · cases h

theorem lookup_kept {i i' : Interner} {root root' : Text} {id id' : Nat} (ht : Tidy root')
    (hl : i.lookup root = some id) (h : workspaceId i root' = some (i', id')) : i'.lookup root = some id := by
  rw [workspaceId] at h
  cases hl' : i.lookup root' with
  | some id'' =>
    rw [hl'] at h
    injection h with h
    injection h with h1 h2
    rw [← h1, hl]
  | none =>
    rw [hl'] at h
    simp only at h
    split at h
    · injection h with h
      injection h with h1 h2
      rw [← h1, Interner.lookup, List.find?_cons_of_neg]
      · exact hl
      · simp only [decide_eq_true_eq]
        intro e
        -- the new root would have been found
        rw [Tidy] at ht
        rw [ht] at e
        have : i.lookup root' = i.lookup root := by rw [Interner.lookup, Interner.lookup, e]
        rw [this, hl] at hl'
        cases hl'
    · cases h

/-- **C24, what holds**: while only roots in normal form are asked for, asking again for a root gives the same id.
Missing: roots with `..`. -/
theorem same_root_same_id_partial {i i' j : Interner} {root : Text} {id : Nat} (ht : Tidy root)
    (h : workspaceId i root = some (i', id)) (hl : LaterTidy i' j) : workspaceId j root = some (j, id) := by
  have : j.lookup root = some id := by
    induction hl with
    | refl => exact lookup_after ht h
    | step _ ht' hw ih => exact lookup_kept ht' ih hw
  rw [workspaceId, this]

example : Tidy "/home/u//ws/".toList := by unfold Tidy; decide +kernel

/-- **C24 fails**: after a request for the same directory written with `..`, a root gets a new id. -/
theorem root_changes_id :
    ((workspaceId .init "/b".toList).bind fun (i, a) =>
      (workspaceId i "/a/../b".toList).bind fun (i, b) =>
        (workspaceId i "/b".toList).map fun (_, c) => (a, b, c)) = some (0, 1, 1) := by decide +kernel

/-- `n` requests for a root. -/
def request (root : Text) : Nat → Interner → Option Interner
  | 0, i => some i
  | n + 1, i => (workspaceId i root).bind fun (i, _) => request root n i

/-- A root written with `..` gets a new id each time it is asked for, until the server panics. -/
theorem untidy_root_exhausts : request "/a/../b".toList 65536 .init ≠ none ∧ request "/a/../b".toList 65537 .init = none := by
  have hb : clean "/a/../b".toList = "/b".toList := by decide +kernel
  have key : ∀ n i, (∀ e ∈ i.toId, e.1 = "/b".toList) → i.fromId.length ≤ 65536 →
      (request "/a/../b".toList n i).isSome = decide (i.fromId.length + n ≤ 65536) := by
    intro n
    induction n with
    | zero => intro i _ h; simp [request, h]
    | succ n ih =>
      intro i hk hlen
      have hl : i.lookup "/a/../b".toList = none := by
        rw [Interner.lookup, Option.map_eq_none_iff, List.find?_eq_none]
        intro e he
        rw [hk e he]
        decide
      by_cases hs : i.fromId.length ≤ u16Max
      · have hw : workspaceId i "/a/../b".toList = some
            (⟨("/b".toList, i.fromId.length) :: i.toId, i.fromId ++ ["/b".toList]⟩, i.fromId.length) := by
          rw [workspaceId, hl]
          simp only [hb, if_pos hs]
        rw [request, hw, Option.bind_some]
        rw [ih]
        · simp; omega
        · intro e he
          rcases List.mem_cons.mp he with rfl | he
          · rfl
          · exact hk e he
        · simp [u16Max] at hs ⊢; omega
      · have hw : workspaceId i "/a/../b".toList = none := by
          rw [workspaceId, hl]
          simp only [if_neg hs]
        rw [request, hw]
        simp [u16Max] at hs
        simp; omega
  have h0 : ∀ e ∈ Interner.init.toId, e.1 = "/b".toList := by intro e h; cases h
  constructor
  · intro h
    have := key 65536 .init h0 (by simp [Interner.init])
    rw [h] at this
    simp [Interner.init] at this
  · have := key 65537 .init h0 (by simp [Interner.init])
    cases h : request "/a/../b".toList 65537 .init with
    | none => rfl
    | some i => rw [h] at this; simp [Interner.init] at this

/-! ## C58: what documents can name -/

/-- **C58 fails**: a document that imports `@ws/p7:0.0.0`, when fewer than eight workspace ids exist, panics; in
general so does every id not yet given out. -/
theorem ws_import_panics (i : Interner) (id : Nat) (h1 : i.fromId.length ≤ id) (h2 : id ≤ u16Max) (s : Text)
    (pkg : PackageSpec → Option Text) :
    pathForId i pkg ⟨some ⟨wsNs, 'p' :: print 10 id, (0, 0, 0)⟩, vpathNew s⟩ = .panic := by
  have := resolve_wsPackage h2 (vpathNew s)
  rw [wsPackage] at this
  rw [pathForId, this]
  simp only [List.getElem?_eq_none h1]

example : ('p' :: print 10 7) = "p7".toList := by decide +kernel

/-- **C58 fails**: a document in one workspace can name the files of another. -/
theorem ws_import_foreign :
    ((workspaceFile .init (some "/secret".toList) (vpathNew "x.typ".toList)).bind fun (i, _) =>
      (workspaceFile i (some "/mine".toList) (vpathNew "main.typ".toList)).map fun (i, _) =>
        pathForId i (fun _ => none) ⟨some ⟨wsNs, "p0".toList, (0, 0, 0)⟩, vpathNew "/typst.toml".toList⟩
          == .resolved "/secret/typst.toml".toList) = some true := by decide +kernel

/-- **C58, what holds**: no other file id panics. -/
theorem other_imports_safe_partial (i : Interner) (pkg : PackageSpec → Option Text) (f : FileId)
    (h : ∀ p, f.package = some p → p.ns ≠ wsNs) : pathForId i pkg f ≠ .panic := by
  rw [pathForId]
  have hr : resolve f = .rootless ∨ resolve f = .package := by
    rw [resolve]
    cases hp : f.package with
    | none => exact Or.inl rfl
    | some p => exact Or.inr (by simp only [if_neg (h p hp)])
  rcases hr with hr | hr <;> rw [hr]
  · simp
  · simp only
    split
    · simp
    · split <;> simp

end Tinymist.Workspace
