import Verif.Spec.Answer
import Verif.Props.Entry

/-!
# Requests are answered in the project of their file (C184)
-/

namespace Tinymist.Answer

open Paths Workspace

variable {env : Env} {s s' : Server} {q : Query} {snap : Snap}

theorem pinned_iff : s.isPinning = true ↔ Pinned s := by
  unfold Server.isPinning Pinned
  cases s.pinUser <;> cases s.pinPreview <;> cases s.snap.entry.main <;> simp

/-! ## Helpers -/

theorem newRooted_none {i : Interner} {root : Text} {v : List Comp} (h : newRooted i root v = none) : Full i := by
  unfold newRooted workspaceFile at h
  simp only [Option.map_eq_none_iff] at h
  exact ⟨root, h⟩

theorem byParent_none {i : Interner} {entry : Text} (h : newRootedByParent i entry = none) : Full i := by
  unfold newRootedByParent at h
  split at h
  · cases h
  · unfold workspaceFile at h
    cases hp : parent entry with
    | none => rw [hp] at h; cases h
    | some root =>
      rw [hp] at h
      simp only [Option.map_eq_none_iff] at h
      exact ⟨root, h⟩

theorem resolveWithRoot_none {r : Resolver} {i : Interner} {root : Option Text} {entry : Text} (h : r.resolveWithRoot i root entry = none) :
    Full i := by
  unfold Resolver.resolveWithRoot at h
  simp only at h
  split at h
  · exact newRooted_none h
  · rw [Option.map_eq_none_iff] at h
    exact byParent_none h

theorem resolveTask_none {path : Text} (h : resolveTask env s path = none) : Full s.interner := by
  unfold resolveTask at h
  split at h
  · rw [Option.map_eq_none_iff] at h
    exact resolveWithRoot_none h
  · simp only [Option.map_eq_none_iff] at h
    exact resolveWithRoot_none h

theorem query_semantic (h : Semantic q.kind ∨ Global q.kind) : query env s q = queryOn env s q := by
  obtain ⟨k, p⟩ := q
  unfold query
  cases k <;> first | rfl | simp [Semantic, Global] at h

theorem facts (h : Semantic q.kind ∨ Global q.kind) : q.kind.feature ≠ .contextFreeUnique ∧ q.kind.handled = true := by
  obtain ⟨k, p⟩ := q
  cases k <;> first | (constructor <;> simp [Kind.feature, Kind.handled]; done) | simp [Semantic, Global] at h

theorem associated_semantic (h : Semantic q.kind) : q.associated = some q.path := by
  obtain ⟨k, p⟩ := q
  unfold Query.associated
  cases k <;> first | rfl | simp [Semantic] at h

theorem associated_global (h : Global q.kind) : q.associated = none := by
  obtain ⟨k, p⟩ := q
  unfold Query.associated
  cases k <;> first | rfl | simp [Global] at h

theorem task_entry (e : EntryState) : (snap.task e).entry = e ∧ (snap.task e).inputs = snap.inputs ∧ (snap.task e).doc = snap.doc := by
  unfold Snap.task
  split
  · exact ⟨rfl, rfl, rfl⟩
  · rename_i h
    exact ⟨(Classical.not_not.1 h).symm, rfl, rfl⟩

theorem resolveWithRoot_right {r : Resolver} {i i' : Interner} (hi : Reachable i) {root entry : Text} (hr : isAbsolute root = true)
    (hf : FilePath entry) {e : EntryState} (h : r.resolveWithRoot i (some root) entry = some (i', e)) (pkg : PackageSpec → Option Text) :
    Main pkg i' e entry := by
  obtain ⟨ha, hd, hf⟩ := hf
  obtain ⟨ns, he, hg⟩ := absolute_names ha hd
  rcases List.eq_nil_or_concat ns with rfl | ⟨ms, n, rfl⟩
  · exact (hf (by rw [fileName, he]; rfl)).elim
  rw [List.concat_eq_append] at he hg
  simp only [Resolver.resolveWithRoot, Option.bind_some] at h
  cases hst : stripPrefix entry root with
  | none =>
    rw [hst] at h
    simp only [Option.map_none] at h
    obtain ⟨⟨i1, o⟩, hw, ee⟩ := Option.map_eq_some_iff.mp h
    obtain ⟨e', rfl, hright, _⟩ := newRootedByParent_right hi he hg hw pkg
    injection ee with e1 e2
    subst e1; subst e2
    exact ⟨hright.file, hright.root⟩
  | some t =>
    rw [hst] at h
    simp only [Option.map_some] at h
    obtain ⟨xs, rest, e1, e2, _, e4⟩ := stripPrefix_names he hg hr hst
    have := newRooted_right hi e2 e4 he e1 h pkg
    exact ⟨this.file, this.root⟩

theorem names_project {path dir : Text} {d : Input} (h : Names env s path dir d) :
    (if s.lockDatabase then env.project path else none) = some ((d.root.bind (toAbs dir)).getD dir, (toAbs dir d.main).getD path) := by
  obtain ⟨h1, docs, before, after, h2, h3, rfl, h4⟩ := h
  have : (before ++ d :: after).find? (fun x => x.id = d.id) = some d := by
    rw [List.find?_eq_some_iff_append]
    refine ⟨by simp, before, after, rfl, fun x hx => ?_⟩
    simp [h4 x hx]
  rw [h1, if_pos rfl]
  unfold Env.project
  rw [h2, Option.bind_some]
  simp only
  rw [h3, Option.bind_some, this]
  rfl

theorem project_names {path : Text} (h : ∀ dir d, ¬ Names env s path dir d) : (if s.lockDatabase then env.project path else none) = none := by
  cases hl : s.lockDatabase with
  | false => rfl
  | true =>
    rw [if_pos rfl]
    unfold Env.project
    cases h1 : env.route path with
    | none => rfl
    | some x =>
      obtain ⟨dir, id⟩ := x
      rw [Option.bind_some]
      simp only
      cases h2 : env.lock dir with
      | none => rfl
      | some docs =>
        rw [Option.bind_some]
        cases h3 : docs.find? (fun x => x.id = id) with
        | none => rfl
        | some d =>
          obtain ⟨h4, before, after, h5, h6⟩ := List.find?_eq_some_iff_append.1 h3
          have h4 : d.id = id := by simpa using h4
          refine absurd ⟨hl, docs, before, after, ?_, h2, h5, fun x hx => ?_⟩ (h dir d)
          · rw [h1, h4]
          · have := h6 x hx
            rw [h4]
            simpa using this

theorem toAbs_written {dir : Text} {r : ResourcePath.ResPath} {t : Text} (h : Written dir r t) : toAbs dir r = some t := by
  cases h with
  | absolute h =>
    unfold toAbs toAbsPath
    rw [if_pos (by rfl), if_pos (by exact h)]
  | relative h =>
    unfold toAbs toAbsPath
    rw [if_pos (by rfl), if_neg (by simp [h])]

/-! ## The claim -/

/-- **C184.** Every request but one for formatting, which the server does not make, is answered or refused; the server does not crash while
there are ids for roots. -/
theorem answered (h : query env s q = .panic) : q.kind = .formatting ∨ Full s.interner := by
  obtain ⟨k, p⟩ := q
  by_cases hf : k = .formatting
  · exact .inl hf
  · refine .inr ?_
    by_cases hs : Semantic k ∨ Global k
    · rw [query_semantic hs] at h
      obtain ⟨h1, h2⟩ := facts (q := ⟨k, p⟩) hs
      unfold queryOn at h
      rw [if_neg h1] at h
      simp only [h2, if_true] at h
      split at h
      · cases h
      · split at h
        · split at h
          · cases h
          · rename_i hr
            exact resolveTask_none hr
        · split at h
          · cases h
          · split at h
            · cases h
            · rename_i hr
              exact newRooted_none hr
    · unfold query at h
      cases k <;> first
        | (simp [Semantic, Global] at hs; done)
        | (simp at hf; done)
        | (cases h; done)
        | (simp only [querySource] at h; split at h <;> cases h)

/-- **C184.** A request about syntax is answered from the text of the file if it is open, and is refused if not. -/
theorem syntactic (h : Syntactic q.kind) : query env s q =
    if ∃ p ∈ s.memory, components p = components q.path then .source q.path else .missing := by
  have : query env s q = querySource s q.path := by
    obtain ⟨k, p⟩ := q
    cases k <;> first | rfl | simp [Syntactic] at h
  rw [this, querySource]
  by_cases hm : ∃ p ∈ s.memory, components p = components q.path
  · rw [if_pos hm, if_pos (by simpa using hm)]
  · rw [if_neg hm, if_neg (by simpa using hm)]

/-- **C184.** While a main file is pinned, requests are answered in its project. -/
theorem pinned_project (h : Semantic q.kind ∨ Global q.kind) (hp : Pinned s) : query env s q = .snapshot s s.snap := by
  obtain ⟨h1, h2⟩ := facts h
  rw [query_semantic h, queryOn, if_neg h1, if_pos (pinned_iff.2 hp)]
  simp only [h2, if_true]

theorem unpinned (h : Semantic q.kind) (hp : ¬ Pinned s) (ha : query env s q = .snapshot s' snap) :
    ∃ e, resolveTask env s q.path = some (s', e) ∧ snap = s.snap.task e := by
  obtain ⟨h1, h2⟩ := facts (.inl h)
  rw [query_semantic (.inl h), queryOn, if_neg h1, if_neg (by rw [pinned_iff]; exact hp), associated_semantic h] at ha
  simp only [h2, if_true] at ha
  split at ha
  · rename_i e hr
    cases ha
    exact ⟨e, hr, rfl⟩
  · cases ha

/-- **C184**, in part: with nothing pinned, a request about a file that lock files name nothing for is answered with this file as the main
file. Missing: the document, see `foreign_document`. -/
theorem own_project_partial (h : Semantic q.kind) (hp : ¬ Pinned s) (hs : Sound s) (hl : ∀ dir d, ¬ Names env s q.path dir d) (hf : FilePath q.path)
    (ha : query env s q = .snapshot s' snap) (pkg : PackageSpec → Option Text) : Main pkg s'.interner snap.entry q.path := by
  obtain ⟨e, h1, rfl⟩ := unpinned h hp ha
  obtain ⟨h2, -, -⟩ := task_entry (snap := s.snap) e
  rw [h2]
  unfold resolveTask at h1
  rw [project_names hl] at h1
  simp only at h1
  obtain ⟨⟨i, e'⟩, h3, h4⟩ := Option.map_eq_some_iff.1 h1
  cases h4
  obtain ⟨rp, rs, hr, h5, h6⟩ := hs.resolver
  have := entry_is_the_file hr h5 h6 hs.interner env.hasToml hf.1 hf.2.1 hf.2.2 h3 pkg
  exact ⟨this.file, this.root⟩

/-- **C184**, in part (the document and the inputs are missing, see `foreign_document` and `inputs_ignored`): with nothing pinned, a request
about a file that lock files name a document for is answered with the main file of that
document. -/
theorem named_project_partial {dir main : Text} {d : Input} (h : Semantic q.kind) (hp : ¬ Pinned s) (hs : Sound s) (hn : Names env s q.path dir d)
    (hm : Written dir d.main main) (hf : FilePath main) (hd : isAbsolute dir = true)
    (hr : ∀ r, d.root = some r → ∃ t, Written dir r t ∧ isAbsolute t = true)
    (ha : query env s q = .snapshot s' snap) (pkg : PackageSpec → Option Text) : Main pkg s'.interner snap.entry main := by
  obtain ⟨e, h1, rfl⟩ := unpinned h hp ha
  obtain ⟨h2, -, -⟩ := task_entry (snap := s.snap) e
  rw [h2]
  unfold resolveTask at h1
  rw [names_project hn, toAbs_written hm] at h1
  simp only [Option.getD_some] at h1
  obtain ⟨⟨i, e'⟩, h3, h4⟩ := Option.map_eq_some_iff.1 h1
  cases h4
  refine resolveWithRoot_right hs.interner ?_ hf h3 pkg
  cases hdr : d.root with
  | none => exact hd
  | some r =>
    obtain ⟨t, h5, h6⟩ := hr r hdr
    rw [Option.bind_some, toAbs_written h5]
    exact h6

/-- **C184.** The root is the one that the document names, or else the directory of the lock file, if the main file is in it. -/
theorem named_root {dir main root : Text} {d : Input} (h : Semantic q.kind) (hp : ¬ Pinned s) (hn : Names env s q.path dir d)
    (hm : Written dir d.main main) (hr : (d.root = none ∧ root = dir) ∨ ∃ r, d.root = some r ∧ Written dir r root)
    (hi : components root <+: components main) (ha : query env s q = .snapshot s' snap) : snap.entry.root = some root := by
  obtain ⟨e, h1, rfl⟩ := unpinned h hp ha
  obtain ⟨h2, -, -⟩ := task_entry (snap := s.snap) e
  rw [h2]
  unfold resolveTask at h1
  rw [names_project hn, toAbs_written hm] at h1
  have hroot : (d.root.bind (toAbs dir)).getD dir = root := by
    rcases hr with ⟨h3, rfl⟩ | ⟨r, h3, h4⟩
    · rw [h3]; rfl
    · rw [h3, Option.bind_some, toAbs_written h4]; rfl
  rw [hroot] at h1
  simp only [Option.getD_some] at h1
  obtain ⟨⟨i, e'⟩, h3, h4⟩ := Option.map_eq_some_iff.1 h1
  cases h4
  unfold Resolver.resolveWithRoot at h3
  have hst : stripPrefix main root = some (collect ((components main).drop (components root).length)) := by
    unfold stripPrefix
    rw [if_pos (List.isPrefixOf_iff_prefix.mpr hi)]
  rw [Option.bind_some, hst] at h3
  simp only [Option.map_some] at h3
  unfold newRooted at h3
  obtain ⟨⟨i1, f⟩, -, ee⟩ := Option.map_eq_some_iff.mp h3
  cases ee
  rfl

/-- **C184.** With nothing pinned, a request that is not about a file is answered in the root that is set, or else the first folder, with a
main file of its own. -/
theorem global_project {root : Text} (h : Global q.kind) (hp : ¬ Pinned s) (hs : Reachable s.interner)
    (hr : s.resolver.rootPath = some root ∨ (s.resolver.rootPath = none ∧ ∃ rest, s.resolver.roots = root :: rest))
    (ha : query env s q = .snapshot s' snap) (pkg : PackageSpec → Option Text) :
    snap.entry.root = some root ∧ ∃ f t, snap.entry.main = some f ∧ pathForId s'.interner pkg f = .resolved t ∧
      ∀ d, denotes d t = denotes d root ++ ["__detached.typ".toList] := by
  obtain ⟨h1, h2⟩ := facts (.inr h)
  have hd : s.resolver.defaultRoot = some root := by
    unfold Resolver.defaultRoot
    rcases hr with hr | ⟨hr, rest, hr'⟩
    · rw [hr]
    · rw [hr, hr']; rfl
  rw [query_semantic (.inr h), queryOn, if_neg h1, if_neg (by rw [pinned_iff]; exact hp), associated_global h] at ha
  simp only [h2, if_true, hd] at ha
  split at ha
  · rename_i i e hn
    cases ha
    obtain ⟨h3, -, -⟩ := task_entry (snap := s.snap) e
    rw [h3]
    unfold newRooted at hn
    obtain ⟨⟨i1, f⟩, h4, ee⟩ := Option.map_eq_some_iff.mp hn
    cases ee
    obtain ⟨t, h5, h6⟩ := (file_id_denotes hs h4 .refl pkg).1 ["__detached.typ".toList] (by decide)
    exact ⟨rfl, f, t, rfl, h5, h6⟩
  · cases ha

/-- **C184.** Without any root, it is answered in the project of the main file. -/
theorem global_rootless (h : Global q.kind) (h1 : s.resolver.rootPath = none) (h2 : s.resolver.roots = []) :
    query env s q = .snapshot s s.snap := by
  by_cases hp : Pinned s
  · exact pinned_project (.inr h) hp
  · obtain ⟨h3, h4⟩ := facts (.inr h)
    have hd : s.resolver.defaultRoot = none := by
      unfold Resolver.defaultRoot
      rw [h1, h2]; rfl
    rw [query_semantic (.inr h), queryOn, if_neg h3, if_neg (by rw [pinned_iff]; exact hp), associated_global h]
    simp only [h4, if_true, hd]

/-- **C184.** Answering changes nothing but what is remembered about roots. -/
theorem unchanged (ha : query env s q = .snapshot s' snap) :
    s' = { s with interner := s'.interner, resolver := s'.resolver } ∧ snap.inputs = s.snap.inputs ∧ snap.doc = s.snap.doc := by
  by_cases hs : Semantic q.kind ∨ Global q.kind
  · by_cases hp : Pinned s
    · rw [pinned_project hs hp] at ha
      cases ha
      exact ⟨rfl, rfl, rfl⟩
    · rcases hs with hs | hs
      · obtain ⟨e, h1, rfl⟩ := unpinned hs hp ha
        obtain ⟨-, h2, h3⟩ := task_entry (snap := s.snap) e
        refine ⟨?_, h2, h3⟩
        unfold resolveTask at h1
        split at h1
        · obtain ⟨⟨i, e'⟩, -, h4⟩ := Option.map_eq_some_iff.1 h1
          cases h4
          rfl
        · obtain ⟨⟨i, e'⟩, -, h4⟩ := Option.map_eq_some_iff.1 h1
          cases h4
          rfl
      · obtain ⟨h1, h2⟩ := facts (.inr hs)
        rw [query_semantic (.inr hs), queryOn, if_neg h1, if_neg (by rw [pinned_iff]; exact hp), associated_global hs] at ha
        simp only [h2, if_true] at ha
        split at ha
        · cases ha
          exact ⟨rfl, rfl, rfl⟩
        · split at ha
          · rename_i i e hn
            cases ha
            obtain ⟨-, h3, h4⟩ := task_entry (snap := s.snap) e
            exact ⟨rfl, h3, h4⟩
          · cases ha
  · obtain ⟨k, p⟩ := q
    unfold query at ha
    cases k <;> first
      | (simp [Semantic, Global] at hs; done)
      | (cases ha; done)
      | (simp only [querySource] at ha; split at ha <;> cases ha)
      | (simp only [queryOn] at ha; rw [if_pos (by rfl)] at ha; cases ha)

/-- **C184.** What is remembered about roots after a request about a file is what is remembered after the file is opened (C67), if lock files
name nothing for it, and is as it was if they name a document. -/
theorem remembered (h : Semantic q.kind) (hp : ¬ Pinned s) (ha : query env s q = .snapshot s' snap) :
    ((∀ dir d, ¬ Names env s q.path dir d) → s'.resolver = (s.resolver.root env.hasToml q.path).1) ∧
      ((∃ dir d, Names env s q.path dir d) → s'.resolver = s.resolver) := by
  obtain ⟨e, h1, rfl⟩ := unpinned h hp ha
  unfold resolveTask at h1
  constructor
  · intro hl
    rw [project_names hl] at h1
    obtain ⟨⟨i, e'⟩, -, h4⟩ := Option.map_eq_some_iff.1 h1
    cases h4
    rfl
  · rintro ⟨dir, d, hn⟩
    rw [names_project hn] at h1
    obtain ⟨⟨i, e'⟩, -, h4⟩ := Option.map_eq_some_iff.1 h1
    cases h4
    rfl

/-! ## Examples -/

/-- Two files in a folder, with the first one compiled. -/
def example1 : Server where
  pinUser := false
  pinPreview := false
  lockDatabase := true
  memory := []
  resolver := ⟨none, ["/w".toList], []⟩
  interner := .init
  snap := ⟨⟨some "/w".toList, some ⟨none, vpathNew "/a.typ".toList⟩⟩, [], some ⟨none, vpathNew "/a.typ".toList⟩⟩

/-- A lock file that has `/w/b.typ` as part of `/w/main.typ` with an input. -/
def example2 : Env where
  route := fun p => if p = "/w/b.typ".toList then some ("/w".toList, "m".toList) else none
  lock := fun _ => some [⟨"m".toList, none, ⟨"file".toList, "main.typ".toList⟩, [(['x'], ['y'])]⟩]
  hasToml := fun _ => false

/-- Where the main file of an answer is, its path in the root, and that of the file whose document is used. -/
structure Parts where
  file : Option Location
  main : Option (List Comp)
  doc : Option (List Comp)
  deriving DecidableEq

def Outcome.parts : Outcome → Option Parts
  | .snapshot s snap => some ⟨snap.entry.main.map (pathForId s.interner fun _ => none), snap.entry.main.map (·.vpath), snap.doc.map (·.vpath)⟩
  | _ => none

/-- A request about `/w/b.typ` is answered with `/w/main.typ` as the main file. -/
theorem foreign_witness : (query example2 example1 ⟨.hover, "/w/b.typ".toList⟩).parts =
    some ⟨some (.resolved "/w/main.typ".toList), some (vpathNew "main.typ".toList), some (vpathNew "/a.typ".toList)⟩ := by
  decide +kernel

/-- **C184**, violated: an answer about a file is made with the document compiled last for the main file, which may be another one. -/
theorem foreign_document : ∃ (env : Env) (s s' : Server) (q : Query) (snap : Snap), Semantic q.kind ∧ ¬ Pinned s ∧
    query env s q = .snapshot s' snap ∧ snap.doc ≠ none ∧ snap.doc.map (·.vpath) ≠ snap.entry.main.map (·.vpath) := by
  cases h : query example2 example1 ⟨.hover, "/w/b.typ".toList⟩ with
  | snapshot s' snap =>
    have hw := foreign_witness
    rw [h] at hw
    refine ⟨example2, example1, s', ⟨.hover, "/w/b.typ".toList⟩, snap, by simp [Semantic], by simp [Pinned, example1], h, ?_, ?_⟩
    · intro hd
      simp only [Outcome.parts, hd, Option.some.injEq, Parts.mk.injEq] at hw
      exact absurd hw.2.2 (by decide)
    · simp only [Outcome.parts, Option.some.injEq, Parts.mk.injEq] at hw
      rw [hw.2.1, hw.2.2]
      decide
  | _ => have hw := foreign_witness; rw [h] at hw; cases hw

/-- **C184**, violated: the inputs that a document has in the lock file are not used, those of the main file are. -/
theorem inputs_ignored {dir : Text} {d : Input} (_ : Names env s q.path dir d) (hi : d.inputs ≠ s.snap.inputs)
    (ha : query env s q = .snapshot s' snap) : snap.inputs ≠ d.inputs := by
  rw [(unchanged ha).2.1]
  exact hi.symm

/-- The lock file names a document for `/w/b.typ`. -/
example : Names example2 example1 "/w/b.typ".toList "/w".toList ⟨"m".toList, none, ⟨"file".toList, "main.typ".toList⟩, [(['x'], ['y'])]⟩ :=
  ⟨rfl, _, [], [], by decide +kernel, rfl, rfl, fun _ h => nomatch h⟩

/-- It names none for `/w/c.typ`, which is then its own main file. -/
example : (query example2 example1 ⟨.hover, "/w/c.typ".toList⟩).parts =
    some ⟨some (.resolved "/w/c.typ".toList), some (vpathNew "c.typ".toList), some (vpathNew "/a.typ".toList)⟩ := by
  decide +kernel

example : Sound example1 := ⟨.init, none, ["/w".toList], .init, by simp, by simp; decide⟩

end Tinymist.Answer
