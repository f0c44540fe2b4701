import Verif.Spec.Recorded
import Verif.Props.Answer
import Verif.Props.CompletePaths

/-!
# The lock file names the document that was compiled (C190)
-/

namespace Tinymist.Recorded

open Paths Answer Workspace ResourcePath

theorem denotes_abs {p : Text} {ns : List Text} (h : components p = .root :: names ns) (d : Dir) : denotes d p = ns := by
  unfold denotes
  rw [h, walk_cons, walk_names]
  rfl

theorem diffLoop_prefix (cs : List Text) (A : List Comp) : diffLoop [] (names cs ++ A) (names cs) = some A := by
  induction cs with
  | nil => cases A <;> rfl
  | cons c cs ih =>
    simp only [List.map_cons, List.cons_append]
    rw [diffLoop, if_pos ⟨rfl, rfl⟩]
    exact ih

theorem clean_plain {p : Text} {ns : List Text} (h : components p = .root :: names ns) : cleanForDiff p = p := by
  unfold cleanForDiff
  rw [if_neg]
  rw [h]
  simp

theorem resource_below {cwd main : Text} {cs b : List Text} (hc : components cwd = .root :: names cs)
    (hm : components main = .root :: names (cs ++ b)) (hg : ∀ c ∈ names b, GoodComp c) (hb : b ≠ []) :
    ∃ r, fromUserSys cwd main = some r ∧ isAbsolute r = false ∧ components r = names b := by
  have h1 : isAbsolute cwd = true := (isAbsolute_iff cwd).2 (by rw [hc]; rfl)
  have h2 : isAbsolute main = true := (isAbsolute_iff main).2 (by rw [hm]; rfl)
  have h3 : components (collect (names b)) = names b := components_collect_names hg
  have h4 : diff main cwd = some (collect (names b)) := by
    unfold diff diffPaths
    rw [clean_plain hc, clean_plain hm, if_neg (by simp [h1, h2]), hc, hm, diffLoop_root]
    have : names (cs ++ b) = names cs ++ names b := List.map_append
    rw [this, diffLoop_prefix]
    rfl
  have h5 : isAbsolute (collect (names b)) = false := by
    cases h : isAbsolute (collect (names b)) with
    | false => rfl
    | true =>
      have := (isAbsolute_iff _).1 h
      rw [h3] at this
      cases b with
      | nil => cases this
      | cons x xs => cases this
  refine ⟨unixSlash (collect (names b)), ?_, ?_, ?_⟩
  · unfold fromUserSys
    rw [if_pos h2, h4]
    rfl
  · rw [Complete.slash_absolute, h5]
  · have h6 : (names b).filter (· ≠ .cur) = names b := by
      rw [List.filter_eq_self]
      intro c hc
      obtain ⟨n, -, rfl⟩ := List.mem_map.1 hc
      simp
    rcases Complete.components_slash (collect (names b)) with ⟨h, -⟩ | h
    · rw [h3, h6] at h
      exact absurd (List.map_eq_nil_iff.1 h) hb
    · rw [h, h3, h6]

theorem written_abs {dir p t : Text} (h : Written dir ⟨['f', 'i', 'l', 'e'], p⟩ t) : t = toAbsPath dir p := by
  unfold toAbsPath
  cases h with
  | absolute h => rw [if_pos h]
  | relative h => rw [if_neg (by simp [h])]

theorem abs_written (dir p : Text) : Written dir ⟨['f', 'i', 'l', 'e'], p⟩ (toAbsPath dir p) := by
  unfold toAbsPath
  cases h : isAbsolute p with
  | true => exact .absolute h
  | false => exact .relative h

theorem denotes_toAbs (dir p : Text) : denotes [] (toAbsPath dir p) = denotes (denotes [] dir) p := by
  rw [toAbsPath]
  split
  · rename_i h; exact walk_root _ _ (components_absolute h)
  · exact denotes_join [] dir p

theorem resource_dot (cwd : Text) : resource cwd ['.'] = some ⟨['f', 'i', 'l', 'e'], ['.']⟩ := rfl

/-- What is recorded. -/
theorem compiled_some {cwd : Text} (hc : isAbsolute cwd = true) (w : World) {path : Text} (hw : w.disk = some path) :
    ∃ id r, fromUserSys cwd path = some r ∧
      compiled cwd (some w) = .recorded ⟨id, some ⟨['f', 'i', 'l', 'e'], ['.']⟩, ⟨['f', 'i', 'l', 'e'], r⟩, []⟩ := by
  obtain ⟨i, h1, -⟩ := recorded_path_partial cwd (unixSlash w.rootless) hc
  obtain ⟨r, h2, -⟩ := recorded_path_partial cwd path hc
  refine ⟨display ⟨['f', 'i', 'l', 'e'], i⟩, r, h2, ?_⟩
  have h3 : idOf cwd w = some (display ⟨['f', 'i', 'l', 'e'], i⟩) := by unfold idOf resource; rw [h1]; rfl
  have h4 : resource cwd path = some ⟨['f', 'i', 'l', 'e'], r⟩ := by unfold resource; rw [h2]; rfl
  simp only [compiled, h3, resource_dot, hw, h4]

/-- **C190.** Recording a document never crashes, and something is recorded exactly if there is a main file with a path on disk. -/
theorem recorded_iff (cwd : Text) (hc : isAbsolute cwd = true) (w : Option World) :
    compiled cwd w ≠ .panic ∧ ((∃ d, compiled cwd w = .recorded d) ↔ ∃ m path, w = some m ∧ m.disk = some path) := by
  cases w with
  | none => exact ⟨(nofun), (by rintro ⟨d, h⟩; cases h), (by rintro ⟨m, p, h, -⟩; cases h)⟩
  | some m =>
    cases hd : m.disk with
    | some path =>
      obtain ⟨i, r, -, h⟩ := compiled_some hc m hd
      rw [h]
      exact ⟨(nofun), fun _ => ⟨m, path, rfl, hd⟩, fun _ => ⟨_, rfl⟩⟩
    | none =>
      obtain ⟨i, h1, -⟩ := recorded_path_partial cwd (unixSlash m.rootless) hc
      have h3 : idOf cwd m = some (display ⟨['f', 'i', 'l', 'e'], i⟩) := by unfold idOf resource; rw [h1]; rfl
      have h4 : compiled cwd (some m) = .nothing := by simp only [compiled, h3, resource_dot, hd]
      rw [h4]
      refine ⟨(nofun), (by rintro ⟨d, h⟩; cases h), ?_⟩
      rintro ⟨m', p, h, h'⟩
      cases h
      rw [hd] at h'
      cases h'

/-- **C190**, in part: if the process works in the directory of the lock file, the record is of the file that was compiled, and the root is
the directory of the lock file. Missing: other working directories, see `other_file`. -/
theorem recorded_right_partial {cwd dir path : Text} {w : World} {d : Input} (hc : isAbsolute cwd = true) (hp : isAbsolute path = true)
    (hd : denotes [] dir = denotes [] cwd) (hw : w.disk = some path) (h : compiled cwd (some w) = .recorded d) :
    Of dir d (denotes [] path) ∧ RootOf dir d (denotes [] dir) := by
  obtain ⟨i, r, h1, h2⟩ := compiled_some hc w hw
  rw [h2] at h
  cases h
  refine ⟨⟨_, abs_written dir r, ?_⟩, ⟨_, _, rfl, abs_written dir ['.'], ?_⟩⟩
  · obtain ⟨r', h3, h4⟩ := recorded_path_partial cwd path hc
    rw [h1] at h3
    cases h3
    rw [denotes_toAbs] at h4 ⊢
    rw [hd, h4, Meant]
    exact walk_root _ _ (components_absolute hp)
  · rw [denotes_toAbs]
    rfl

/-- **C190 fails** whenever the process works in a directory above that of the lock file: the names that lead from there to the lock file are
taken twice, and the record is of another file. -/
theorem other_file {cwd dir path : Text} {x b : List Text} {w : World} {d : Input} {f : Dir} (hc : Plain cwd) (hp : Plain path)
    (hx : Below cwd dir x) (h0 : x ≠ []) (hb : Below dir path b) (hw : w.disk = some path) (h : compiled cwd (some w) = .recorded d)
    (hf : Of dir d f) : f = denotes [] dir ++ x ++ b ∧ f ≠ denotes [] path := by
  obtain ⟨cs, h1, -⟩ := absolute_names hc.1 hc.2
  obtain ⟨ms, h3, h4⟩ := absolute_names hp.1 hp.2
  have e1 := denotes_abs h1 []
  have e2 := denotes_abs h3 []
  have e3 : ms = cs ++ (x ++ b) := by
    unfold Below at hx hb
    rw [← e2, hb, hx, e1, List.append_assoc]
  subst e3
  have hg : ∀ c ∈ names (x ++ b), GoodComp c := fun c hc => h4 c (by
    have : names (cs ++ (x ++ b)) = names cs ++ names (x ++ b) := List.map_append
    rw [this]
    exact List.mem_append_right _ hc)
  obtain ⟨r, h5, h6, h7⟩ := resource_below h1 h3 hg (by simp [h0])
  obtain ⟨i, r', h8, h9⟩ := compiled_some hc.1 w hw
  rw [h5] at h8
  cases h8
  rw [h9] at h
  cases h
  obtain ⟨t, h10, rfl⟩ := hf
  have h11 : denotes [] t = denotes [] dir ++ x ++ b := by
    rw [written_abs h10, denotes_toAbs]
    unfold denotes
    rw [h7, walk_names, List.append_assoc]
  refine ⟨h11, ?_⟩
  rw [h11]
  unfold Below at hb
  rw [hb]
  intro h
  have := congrArg List.length h
  simp only [List.length_append] at this
  have : x.length = 0 := by omega
  exact h0 (List.length_eq_zero_iff.1 this)

/-- **C190**, in part: when a file was compiled by a process in the directory of the lock file, and the lock files lead to the record, requests
are answered in a project with this file as its main file. -/
theorem answered_with_it_partial {env : Env} {s s' : Server} {q : Query} {snap : Snap} {dir path : Text} {b : List Text} {w : World} {d : Input}
    (hc : Plain dir) (hp : Plain path) (hb : Below dir path b) (h0 : b ≠ []) (hw : w.disk = some path)
    (h : compiled dir (some w) = .recorded d) (hq : Semantic q.kind) (hpin : ¬ Pinned s) (hs : Sound s) (hn : Names env s q.path dir d)
    (ha : query env s q = .snapshot s' snap) (pkg : PackageSpec → Option Text) : Main pkg s'.interner snap.entry path := by
  obtain ⟨cs, h1, h2⟩ := absolute_names hc.1 hc.2
  obtain ⟨ms, h3, h4⟩ := absolute_names hp.1 hp.2
  have e1 := denotes_abs h1 []
  have e2 := denotes_abs h3 []
  have e3 : ms = cs ++ b := by
    unfold Below at hb
    rw [← e2, hb, e1]
  subst e3
  have hg : ∀ c ∈ names b, GoodComp c := fun c hc => h4 c (by
    have : names (cs ++ b) = names cs ++ names b := List.map_append
    rw [this]
    exact List.mem_append_right _ hc)
  obtain ⟨r, h5, h6, h7⟩ := resource_below h1 h3 hg h0
  obtain ⟨i, r', h8, h9⟩ := compiled_some hc.1 w hw
  rw [h5] at h8
  cases h8
  rw [h9] at h
  cases h
  have hne : dir ≠ [] := by rintro rfl; cases hc.1
  have h10 : components (join dir r) = .root :: names (cs ++ b) := by
    rw [components_join hne h6, h1, h7]
    have : (names b).filter (· ≠ .cur) = names b := by
      rw [List.filter_eq_self]
      intro c hc
      obtain ⟨n, -, rfl⟩ := List.mem_map.1 hc
      simp
    rw [this, List.cons_append]
    exact congrArg _ List.map_append.symm
  have h11 : FilePath (join dir r) := by
    refine ⟨(isAbsolute_iff _).2 (by rw [h10]; rfl), by rw [h10]; simp, ?_⟩
    unfold fileName
    rw [h10]
    obtain ⟨y, ys, rfl⟩ : ∃ (y : Text) (ys : List Text), b = ys ++ [y] := ⟨b.getLast h0, b.dropLast, (List.dropLast_concat_getLast h0).symm⟩
    simp [List.map_append, List.getLast?_cons]
  have h12 : isAbsolute (toAbsPath dir ['.']) = true := by
    have : toAbsPath dir ['.'] = join dir ['.'] := rfl
    rw [this]
    refine (isAbsolute_iff _).2 ?_
    rw [components_join hne rfl, h1]
    rfl
  have h13 := named_project_partial hq hpin hs hn (.relative h6) h11 hc.1
    (fun r hr => by cases hr; exact ⟨_, abs_written dir ['.'], h12⟩) ha pkg
  have h14 : denotes [] (join dir r) = denotes [] path := by rw [denotes_abs h10, denotes_abs h3]
  obtain ⟨⟨f, t, a1, a2, a3⟩, root, a4, a5⟩ := h13
  exact ⟨⟨f, t, a1, a2, a3.trans h14⟩, root, a4, by rw [← h14]; exact a5⟩

/-- **C190.** The id of a record tells the documents of a root apart: with equal ids, the paths in the root lead to the same file. -/
theorem id_tells {cwd : Text} {w w' : World} (h1 : isAbsolute w.rootless = false) (h2 : isAbsolute w'.rootless = false) {id : Text}
    (h : idOf cwd w = some id) (h' : idOf cwd w' = some id) : Same w.rootless w'.rootless := by
  have key : ∀ w : World, isAbsolute w.rootless = false → idOf cwd w = some (['f', 'i', 'l', 'e', ':'] ++ unixSlash (unixSlash w.rootless)) := by
    intro w hw
    have : isAbsolute (unixSlash w.rootless) = false := by rw [Complete.slash_absolute, hw]
    unfold idOf resource fromUserSys
    rw [if_neg (by simp [this])]
    rfl
  rw [key w h1] at h
  rw [key w' h2] at h'
  have e : unixSlash (unixSlash w.rootless) = unixSlash (unixSlash w'.rootless) := by
    have := Option.some.inj (h.trans h'.symm)
    exact List.append_cancel_left this
  intro d
  rw [← printed_same w.rootless d, ← printed_same (unixSlash w.rootless) d, e, printed_same (unixSlash w'.rootless) d, printed_same w'.rootless d]

/-- **C190.** The id that is recorded is this one. -/
theorem recorded_id {cwd : Text} {w : World} {d : Input} (h : compiled cwd (some w) = .recorded d) : idOf cwd w = some d.id := by
  unfold compiled at h
  split at h
  · cases h
  · rename_i m hm
    cases hm
    split at h
    · cases h
    · rename_i id hid
      split at h
      · cases h
      · split at h
        · cases h
        · split at h
          · cases h
          · cases h
            exact hid

/-! ## Examples -/

/-- The main file of `/w/p`. -/
def world1 : World := ⟨"main.typ".toList, some "/w/p/main.typ".toList⟩

def Outcome.input : Outcome → Option (Text × Option ResPath × ResPath)
  | .recorded d => some (d.id, d.root, d.main)
  | _ => none

/-- Compiled in `/w/p`, and in `/w`. -/
example : (compiled "/w/p".toList (some world1)).input =
    some ("file:main.typ".toList, some ⟨"file".toList, ".".toList⟩, ⟨"file".toList, "main.typ".toList⟩) := by decide +kernel

example : (compiled "/w".toList (some world1)).input =
    some ("file:main.typ".toList, some ⟨"file".toList, ".".toList⟩, ⟨"file".toList, "p/main.typ".toList⟩) := by decide +kernel

example : Plain "/w".toList ∧ Plain "/w/p".toList ∧ Plain "/w/p/main.typ".toList ∧ Below "/w".toList "/w/p".toList [['p']] ∧
    Below "/w/p".toList "/w/p/main.typ".toList ["main.typ".toList] := by
  unfold Plain Below
  decide +kernel

/-- Lock files that lead from everywhere to what compiling in `cwd` recorded in `/w/p`. -/
def env1 (cwd : Text) : Env where
  route := fun _ => some ("/w/p".toList, "file:main.typ".toList)
  lock := fun _ => match compiled cwd (some world1) with
    | .recorded d => some [d]
    | _ => none
  hasToml := fun _ => false

/-- A request about another file of `/w/p` is answered with the main file, and with one that does not exist if it was compiled in `/w`. -/
example : ((query (env1 "/w/p".toList) Answer.example1 ⟨.hover, "/w/p/b.typ".toList⟩).parts.bind (·.file)) = some (.resolved "/w/p/main.typ".toList) ∧
    ((query (env1 "/w".toList) Answer.example1 ⟨.hover, "/w/p/b.typ".toList⟩).parts.bind (·.file)) =
      some (.resolved "/w/p/p/main.typ".toList) := by decide +kernel

end Tinymist.Recorded
