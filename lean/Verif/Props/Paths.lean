import Verif.Lemmas.Paths
/-!
# C25, C56: relative paths, printed paths, recorded paths
-/
namespace Tinymist.Paths
open Pages (split split_none split_append split_ne_nil split_cases)

/-- Normalising does not change what a path denotes. -/
theorem clean_denotes (s : Text) : Same (clean s) s := clean_same s

/-- Two paths have the same normal form exactly when they denote the same file wherever they are used. -/
theorem clean_eq_iff (s t : Text) : clean s = clean t ↔ Same s t := by
  constructor
  · intro h cwd
    rw [← clean_same s cwd, ← clean_same t cwd, h]
  · intro h
    apply clean_eq_of_comps
    refine canon_ext (cleanComps_canon s) (cleanComps_canon t) (fun c => cleanComps_good) (fun c => cleanComps_good) ?_
    intro d
    rw [walk_cleanComps, walk_cleanComps]
    exact h d

example : clean "/a//b/../c/.".toList = "/a/c".toList ∧ clean "../x/../..".toList = "../..".toList := by decide

/-- How far above its start a path leads: the `..` left after normalising. -/
def climbs (s : Text) : Nat := (components (clean s)).count .parent

theorem climbs_eq (s : Text) : climbs s = (cleanComps (components s)).count .parent := by
  rw [climbs, components_clean]
  split
  · rename_i h; rw [h]; rfl
  · rfl

theorem count_canon (k : Nat) (ns : List Text) :
    (List.replicate k Comp.parent ++ ns.map Comp.normal).count Comp.parent = k := by
  rw [List.count_append, List.count_replicate_self, List.count_eq_zero.mpr, Nat.add_zero]
  intro h
  obtain ⟨_, _, h⟩ := List.mem_map.mp h
  cases h

/-- **C25, what holds**: the relative path computed from a directory to a path, joined onto the directory, denotes the
path. It exists when both are absolute, or both relative with the directory not leading further up than the path, or
only the path is absolute. Missing: relative directories leading further up, and the empty path. -/
theorem diff_leads_to_target_partial (path base : Text) (hp : path ≠ [])
    (habs : isAbsolute path = isAbsolute base ∨ isAbsolute path = true) (hup : climbs base ≤ climbs path) :
    ∃ r, diff path base = some r ∧ Same (join base r) path := by
  rw [diff, diffPaths, isAbsolute_cleanForDiff, isAbsolute_cleanForDiff]
  by_cases he : isAbsolute path = isAbsolute base
  · rw [if_neg (by simp [he])]
    have key : ∃ r, diffLoop [] (components (cleanForDiff path)) (components (cleanForDiff base)) = some r ∧
        (∀ c ∈ r, GoodComp c) ∧ ∀ d, walk (denotes d base) r = denotes d path := by
      rw [climbs_eq, climbs_eq] at hup
      have hA := fun d => denotes_cleanForDiff d path
      have hB := fun d => denotes_cleanForDiff d base
      simp only [denotes] at hA hB ⊢
      have gA : ∀ c ∈ components (cleanForDiff path), GoodComp c := fun c => components_good
      have gp : GoodComp .parent := by intro n e; cases e
      have gcur : GoodComp .cur := by intro n e; cases e
      have hAc := cleanForDiff_comps path
      have hBc := cleanForDiff_comps base
      have finish : ∀ {A : List Comp} {ns : List Text} {pre : List Comp},
          components (cleanForDiff base) = pre ++ ns.map .normal → (∀ c ∈ A, GoodComp c) →
          (∀ d, walk (walk d pre) A = walk d (components path)) →
          diffLoop [] (components (cleanForDiff path)) (components (cleanForDiff base)) = diffLoop [] A (ns.map .normal) →
          ∃ r, diffLoop [] (components (cleanForDiff path)) (components (cleanForDiff base)) = some r ∧
            (∀ c ∈ r, GoodComp c) ∧ ∀ d, walk (walk d (components base)) r = walk d (components path) := by
        intro A ns pre e1 g e2 e3
        obtain ⟨r, h1, h2, h3⟩ := diffLoop_names A ns
        refine ⟨r, by rw [e3, h1], ?_, ?_⟩
        · intro c hc
          rcases h2 c hc with rfl | h
          · exact gp
          · exact g c h
        · intro d
          rw [← hB d, e1, walk_append, h3, e2]
      -- what the base looks like
      rcases hBc with ⟨eB, eB'⟩ | ⟨eB, _⟩
      · -- the base is a dot
        rcases hAc with ⟨eA, eA'⟩ | ⟨eA, neA⟩
        · exact ⟨[], by rw [eA, eB]; rfl, by simp, fun d => (by rw [← hB d, eB, ← hA d, eA]; rfl)⟩
        · have neA' := neA hp
          refine ⟨components (cleanForDiff path), ?_, gA, ?_⟩
          · rw [eB]
            cases hc : components (cleanForDiff path) with
            | nil => rw [eA] at hc; exact (neA' hc).elim
            | cons a as =>
              have hcur : a ≠ .cur := by
                intro e
                have hm : Comp.cur ∈ cleanComps (components path) := by
                  rw [← eA, hc, e]; exact List.mem_cons_self ..
                rcases cleanComps_canon path with ⟨ns, e⟩ | ⟨k, ns, e⟩
                · rw [e] at hm; simp at hm
                · rw [e] at hm
                  rcases List.mem_append.mp hm with h | h
                  · have := (List.mem_replicate.mp h).2; cases this
                  · simp at h
              rw [diffLoop, if_neg (fun h => hcur h.2), if_pos rfl]
              cases as <;> rfl
          · intro d
            rw [← hB d, eB, hA]; rfl
      · rcases cleanComps_canon base with ⟨ns, e⟩ | ⟨k, ns, e⟩
        · -- absolute
          have hb : isAbsolute base = true := by rw [← cleanComps_root, e]; rfl
          have hroot := cleanComps_root.mpr (he.trans hb)
          rcases hAc with ⟨_, eA'⟩ | ⟨eA, _⟩
          · rw [eA'] at hroot; cases hroot
          · obtain ⟨as, e'⟩ : ∃ as, cleanComps (components path) = .root :: as := by
              cases hc : cleanComps (components path) with
              | nil => rw [hc] at hroot; cases hroot
              | cons a as => rw [hc] at hroot; cases hroot; exact ⟨as, rfl⟩
            refine finish (A := as) (ns := ns) (pre := [.root]) ?_ ?_ ?_ ?_
            · rw [eB, e]; rfl
            · intro c hc; exact gA c (by rw [eA, e']; exact List.mem_cons_of_mem _ hc)
            · intro d; rw [← hA d, eA, e']; rfl
            · rw [eA, e', eB, e, diffLoop_root]
        · rw [e, count_canon] at hup
          have hb : isAbsolute base = false := by
            cases h : isAbsolute base with
            | false => rfl
            | true =>
              rw [← cleanComps_root, e] at h
              cases k with
              | zero =>
                cases ns with
                | nil => cases h
                | cons n ns => cases h
              | succ k => cases h
          rcases hAc with ⟨eA, eA'⟩ | ⟨eA, _⟩
          · rw [eA'] at hup
            have hk : k = 0 := by simpa using hup
            subst hk
            refine finish (A := [.cur]) (ns := ns) (pre := []) ?_ ?_ ?_ ?_
            · rw [eB, e]; rfl
            · intro c hc; rw [List.mem_singleton] at hc; exact hc ▸ gcur
            · intro d; rw [← hA d, eA]; rfl
            · rw [eA, eB, e]; rfl
          · rcases cleanComps_canon path with ⟨ms, e'⟩ | ⟨j, ms, e'⟩
            · exfalso
              have : isAbsolute path = true := by rw [← cleanComps_root, e']; rfl
              rw [he, hb] at this; cases this
            · rw [e', count_canon] at hup
              have hsplit : List.replicate j Comp.parent = List.replicate k .parent ++ List.replicate (j - k) .parent := by
                rw [List.replicate_append_replicate]; congr 1; omega
              refine finish (A := List.replicate (j - k) .parent ++ ms.map .normal) (ns := ns)
                (pre := List.replicate k .parent) ?_ ?_ ?_ ?_
              · rw [eB, e]
              · intro c hc
                refine gA c ?_
                rw [eA, e', hsplit, List.append_assoc]
                exact List.mem_append_right _ hc
              · intro d
                rw [← hA d, eA, e', hsplit, List.append_assoc, walk_append d]
              · rw [eA, e', eB, e, hsplit, List.append_assoc, diffLoop_parents]
    obtain ⟨r, h1, h2, h3⟩ := key
    refine ⟨collect r, by rw [h1]; rfl, ?_⟩
    intro cwd
    rw [denotes_join, denotes_collect _ _ h2, h3]
  · have ha : isAbsolute path = true := by
      rcases habs with h | h
      · exact (he h).elim
      · exact h
    rw [if_pos he, if_pos ha]
    refine ⟨_, rfl, ?_⟩
    intro cwd
    rw [denotes_join, denotes_cleanForDiff]
    exact walk_root _ _ (components_absolute ha)

example : diff "/w/a/b.typ".toList "/w/x/y".toList = some "../../a/b.typ".toList := by decide +kernel

theorem climbs_absolute {s : Text} (h : isAbsolute s = true) : climbs s = 0 := by
  rw [climbs_eq]
  rcases cleanComps_canon s with ⟨ns, e⟩ | ⟨k, ns, e⟩
  · rw [e, List.count_eq_zero]
    intro hm
    simp at hm
  · rw [← cleanComps_root, e] at h
    cases k with
    | zero =>
      cases ns with
      | nil => cases h
      | cons n ns => cases h
    | succ k => cases h

/-- For absolute paths the relative path always exists and leads to the target. -/
theorem diff_absolute (path base : Text) (h1 : isAbsolute path = true) (h2 : isAbsolute base = true) :
    ∃ r, diff path base = some r ∧ Same (join base r) path := by
  refine diff_leads_to_target_partial path base ?_ (Or.inr h1) ?_
  · rintro rfl; cases h1
  · rw [climbs_absolute h2]; exact Nat.zero_le _

/-- **C25 fails** for relative paths: from `../..` the file `..` is claimed to be at `..`, and from `.` the empty path
is claimed to be at `..`. -/
theorem diff_wrong_relative :
    (∃ r, diff "..".toList "../..".toList = some r ∧ ¬ Same (join "../..".toList r) "..".toList) ∧
    ∃ r, diff [] ".".toList = some r ∧ ¬ Same (join ".".toList r) [] := by
  refine ⟨⟨"..".toList, by decide +kernel, fun h => ?_⟩, ⟨"..".toList, by decide +kernel, fun h => ?_⟩⟩
  · exact absurd (h [['a'], ['b'], ['c']]) (by decide)
  · exact absurd (h [['a'], ['b'], ['c']]) (by decide)

/-! ## Printed paths -/

theorem unixSlash_def (s : Text) :
    unixSlash s = if collect ((components s).filter (· ≠ .cur)) = [] then ['.']
      else collect ((components s).filter (· ≠ .cur)) := by
  rw [unixSlash, slash_eq_collect]

/-- The printed form of a path denotes the path. -/
theorem printed_same (s : Text) : Same (unixSlash s) s := by
  intro cwd
  have hg : ∀ c ∈ (components s).filter (· ≠ .cur), GoodComp c := fun c hc => components_good (List.mem_filter.mp hc).1
  have hw := walk_filter_cur cwd (components s)
  rw [unixSlash_def]
  split
  · rename_i h
    rw [collect_eq_nil hg h] at hw
    exact hw
  · rw [denotes_collect _ _ hg, hw]; rfl

/-- **C25**: the printed form has no `.` component (unless it is just `.`), and its characters are slashes, dots and
characters of the names: no other separator is added. -/
theorem printed_form (s : Text) :
    (unixSlash s = ['.'] ∨ ['.'] ∉ split '/' (unixSlash s)) ∧ ∀ c ∈ unixSlash s, c ∈ s ∨ c = '/' ∨ c = '.' := by
  rw [unixSlash_def]
  split
  · refine ⟨Or.inl rfl, ?_⟩
    intro c hc
    exact Or.inr (Or.inr (by simpa using hc))
  · constructor
    · right
      intro h
      rcases parts_collect s _ h with h | h | h
      · cases h
      · exact absurd h (by decide)
      · exact h.2 rfl
    · intro c hc
      by_cases hs : c = '/'
      · exact Or.inr (Or.inl hs)
      · -- a character other than a slash lies in a part
        have key : ∀ (t : Text), c ∈ t → ∃ p ∈ split '/' t, c ∈ p := by
          intro t
          induction t with
          | nil => intro h; cases h
          | cons d t ih =>
            intro h
            rw [split]
            by_cases hd : d = '/'
            · rw [if_pos hd]
              rcases List.mem_cons.mp h with e | h
              · exact (hs (e.trans hd)).elim
              · obtain ⟨p, hp, hc⟩ := ih h
                exact ⟨p, List.mem_cons_of_mem _ hp, hc⟩
            · rw [if_neg hd]
              cases hq : split '/' t with
              | nil => exact (split_ne_nil _ _ hq).elim
              | cons q qs =>
                rcases List.mem_cons.mp h with e | h
                · exact ⟨d :: q, List.mem_cons_self .., by simp [e]⟩
                · rw [hq] at ih
                  obtain ⟨p, hp, hc⟩ := ih h
                  rcases List.mem_cons.mp hp with rfl | hp
                  · exact ⟨d :: p, List.mem_cons_self .., List.mem_cons_of_mem _ hc⟩
                  · exact ⟨p, List.mem_cons_of_mem _ hp, hc⟩
        obtain ⟨p, hp, hcp⟩ := key _ hc
        rcases parts_collect s p hp with rfl | rfl | h
        · cases hcp
        · right; right; simpa using hcp
        · exact Or.inl (mem_split_chars h.1 hcp)

example : unixSlash "./a//b/./../c/".toList = "a/b/../c".toList := by decide

/-! ## C56: recorded paths -/

/-- The file a user means by `inp`, typed in the current directory `cwd`. -/
def Meant (cwd inp : Text) : Dir := denotes (denotes [] cwd) inp

/-- **C56, what holds**: whatever path a user names, recording it succeeds, and if the lock file is in the current
directory, resolving the record there denotes the file meant. Missing: lock files elsewhere. -/
theorem recorded_path_partial (cwd inp : Text) (hc : isAbsolute cwd = true) :
    ∃ r, fromUserSys cwd inp = some r ∧ denotes [] (toAbsPath cwd r) = Meant cwd inp := by
  have toAbs : ∀ r, denotes [] (toAbsPath cwd r) = denotes (denotes [] cwd) r := by
    intro r
    rw [toAbsPath]
    split
    · rename_i h; exact walk_root _ _ (components_absolute h)
    · exact denotes_join [] cwd r
  rw [fromUserSys]
  cases hi : isAbsolute inp with
  | false =>
    refine ⟨_, by rw [if_neg (by simp)], ?_⟩
    rw [toAbs, printed_same]; rfl
  | true =>
    obtain ⟨r, h1, h2⟩ := diff_absolute inp cwd hi hc
    refine ⟨unixSlash r, by rw [if_pos rfl, h1]; rfl, ?_⟩
    rw [toAbs, printed_same, Meant, ← denotes_join, h2]
    exact walk_root _ _ (components_absolute hi)

example : fromUserSys "/home/u".toList "/home/u/doc/../main.typ".toList = some "main.typ".toList := by decide +kernel

/-- **C56 fails**: with a lock file in another directory, the record denotes another file. -/
theorem recorded_path_elsewhere :
    ∃ cwd lockDir inp r, isAbsolute cwd = true ∧ isAbsolute lockDir = true ∧ fromUserSys cwd inp = some r ∧
      denotes [] (toAbsPath lockDir r) ≠ Meant cwd inp :=
  ⟨"/home/u".toList, "/srv".toList, "main.typ".toList, "main.typ".toList, rfl, rfl, by decide, by decide⟩

/-- The relative form of a recorded path, used in generated build scripts, denotes the same file as the record. -/
theorem script_path (base path : Text) (hb : isAbsolute base = true) :
    denotes (denotes [] base) (toRelPath base path) = denotes [] (toAbsPath base path) := by
  rw [toRelPath, toAbsPath]
  cases hp : isAbsolute path with
  | false => exact (denotes_join [] base path).symm
  | true =>
    obtain ⟨r, h1, h2⟩ := diff_absolute path base hp hb
    rw [if_pos rfl, if_pos rfl, h1, Option.getD_some, ← denotes_join, h2]

end Tinymist.Paths
