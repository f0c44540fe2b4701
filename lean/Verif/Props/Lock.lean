import Verif.Lemmas.Lock
import Mathlib.Tactic.DeriveEncodable
import Mathlib.Logic.Encodable.Basic
import Mathlib.Logic.Equiv.List
/-!
# C11, C12, C13, C23, C53: the project lock file
-/
namespace Tinymist.Lock
open ResourcePath
variable {D B T : Type}

/-- **C11**. One commit: every id maps to its last update, or to what it was before; no id is duplicated;
documents and tasks are in canonical order; the routes are the old ones not touched, then the updated
ones in the order of their last update. -/
theorem commit_contents (l : LockFile D B T) (h : Unique l) (us : List (Update D B T)) :
    let l' := sort (applyUpdates l us)
    (∀ id, getDocument l' id = (lastDoc us id).or (getDocument l id)) ∧
    (∀ id, getTask l' id = (lastTask us id).or (getTask l id)) ∧
    Unique l' ∧ Canonical l' ∧
    l'.route = l.route.filter (fun r => ∀ q ∈ routeUpdates us, q.id ≠ r.id) ++
      keepLast (routeUpdates us) := by
  intro l'
  have hu := apply_unique h us
  refine ⟨?_, ?_, sort_unique hu, sort_canonical _, routes_apply l us⟩
  · intro id
    rw [getDocument_sort hu]
    unfold getDocument lastDoc
    rw [docs_apply, find_foldl_upsert]
  · intro id
    rw [getTask_sort hu]
    unfold getTask lastTask
    rw [tasks_apply, find_foldl_upsert]

/-- **C11**. The documents and tasks written do not depend on the order of updates to different ids. -/
theorem commit_order_irrelevant (l : LockFile D B T) (h : Unique l) (us vs : List (Update D B T))
    (hd : ∀ id, lastDoc us id = lastDoc vs id) (ht : ∀ id, lastTask us id = lastTask vs id) :
    (sort (applyUpdates l us)).document = (sort (applyUpdates l vs)).document ∧
    (sort (applyUpdates l us)).task = (sort (applyUpdates l vs)).task := by
  obtain ⟨a1, a2, a3, a4, -⟩ := commit_contents l h us
  obtain ⟨b1, b2, b3, b4, -⟩ := commit_contents l h vs
  exact ⟨docs_eq_of_lookup a3 b3 a4 b4 fun id => by rw [a1, b1, hd],
    tasks_eq_of_lookup a3 b3 a4 b4 fun id => by rw [a2, b2, ht]⟩

/-- **C11** on disk (partial: documents whose resource paths contain no colon and tasks without
transforms, see C53). Starting from an absent or blank lock file, after any sequence of commits the file
reads back, every id has the value of its last update in the whole history, and it is canonical. -/
theorem commits_on_disk_partial (c : Codec D B T) (hc : c.Lawful) (cmp : String → Option Ordering)
    (hv : cmp lockVersion = some .eq) (file : Bytes) (hblank : c.blank file = true)
    (hutf : c.utf8 file = true) (us : List (Update D B T)) (uss : List (List (Update D B T)))
    (hp : ∀ vs ∈ us :: uss, ∀ u ∈ vs, PlainUpdate u) :
    ∃ l, read c ((us :: uss).foldl (commit c cmp) file) = some l ∧ Unique l ∧ Canonical l ∧
      (∀ id, getDocument l id = lastDoc (us :: uss).flatten id) ∧
      (∀ id, getTask l id = lastTask (us :: uss).flatten id) := by
  -- every commit leaves the print of a plain, unique, canonical state
  have happ : ∀ (xs ys : List (Update D B T)) (id : String),
      lastDoc (xs ++ ys) id = (lastDoc ys id).or (lastDoc xs id) := by
    intro xs ys id
    have : docUpdates (xs ++ ys) = docUpdates xs ++ docUpdates ys := by
      induction xs with
      | nil => rfl
      | cons x xs ih => cases x <;> simp [docUpdates, ih]
    unfold lastDoc
    rw [this, List.reverse_append, List.find?_append]
  have happ' : ∀ (xs ys : List (Update D B T)) (id : String),
      lastTask (xs ++ ys) id = (lastTask ys id).or (lastTask xs id) := by
    intro xs ys id
    have : taskUpdates (xs ++ ys) = taskUpdates xs ++ taskUpdates ys := by
      induction xs with
      | nil => rfl
      | cons x xs ih => cases x <;> simp [taskUpdates, ih]
    unfold lastTask
    rw [this, List.reverse_append, List.find?_append]
  suffices hgen : ∀ (uss : List (List (Update D B T))) (l : LockFile D B T) (file : Bytes),
      (file = c.print (toTable l)) → Plain l → Unique l → Canonical l →
      (∀ vs ∈ uss, ∀ u ∈ vs, PlainUpdate u) →
      ∃ l', read c (uss.foldl (commit c cmp) file) = some l' ∧ Unique l' ∧ Canonical l' ∧
        (∀ id, getDocument l' id = (lastDoc uss.flatten id).or (getDocument l id)) ∧
        (∀ id, getTask l' id = (lastTask uss.flatten id).or (getTask l id)) by
    have hload : loadState c cmp file = some (.empty : LockFile D B T) := by
      unfold loadState; simp [hutf, hblank]
    have hune : Unique (.empty : LockFile D B T) := ⟨by simp [LockFile.empty], by simp [LockFile.empty]⟩
    have hple : Plain (.empty : LockFile D B T) :=
      ⟨by simp [LockFile.empty], by simp [LockFile.empty]⟩
    obtain ⟨c1, c2, c3, c4, -⟩ := commit_contents (.empty : LockFile D B T) hune us
    obtain ⟨l', h1, h2, h3, h4, h5⟩ := hgen uss (sort (applyUpdates .empty us)) (commit c cmp file us)
      (commit_eq hload us) (sort_plain (apply_plain hple (hp us (by simp)))) c3 c4
      (fun vs hvs => hp vs (List.mem_cons_of_mem _ hvs))
    refine ⟨l', h1, h2, h3, ?_, ?_⟩
    · intro id
      rw [h4, c1, List.flatten_cons, happ]
      simp [getDocument, LockFile.empty]
    · intro id
      rw [h5, c2, List.flatten_cons, happ']
      simp [getTask, LockFile.empty]
  intro uss
  induction uss with
  | nil =>
    intro l file hf hpl hu hca _
    refine ⟨l, by rw [hf]; exact read_print hc hpl, hu, hca, ?_, ?_⟩
    · intro id; simp [lastDoc, docUpdates]
    · intro id; simp [lastTask, taskUpdates]
  | cons us uss ih =>
    intro l file hf hpl hu hca hp
    have hload : loadState c cmp file = some l := by rw [hf]; exact load_print hc hv hpl
    obtain ⟨c1, c2, c3, c4, -⟩ := commit_contents l hu us
    obtain ⟨l', h1, h2, h3, h4, h5⟩ := ih (sort (applyUpdates l us)) (commit c cmp file us)
      (commit_eq hload us) (sort_plain (apply_plain hpl (hp us (by simp)))) c3 c4
      (fun vs hvs => hp vs (List.mem_cons_of_mem _ hvs))
    refine ⟨l', h1, h2, h3, ?_, ?_⟩
    · intro id
      rw [h4, c1, List.flatten_cons, happ, Option.or_assoc]
    · intro id
      rw [h5, c2, List.flatten_cons, happ', Option.or_assoc]

/-- **C12**. Whatever the semver comparison says: the file is only ever overwritten if it is blank or
holds exactly the supported version in its schema, the update succeeds and the text changes. -/
theorem only_supported_overwritten (c : Codec D B T) (cmp : String → Option Ordering) (old : Bytes)
    (f : LockFile D B T → Option (LockFile D B T)) (h : fileAfter c cmp old f ≠ old) :
    c.utf8 old = true ∧
    ∃ l l', f l = some l' ∧ fileAfter c cmp old f = c.print (toTable (sort l')) ∧
      ((c.blank old = true ∧ l = .empty) ∨
       (∃ t, c.parse old = some ⟨some lockVersion, some t⟩ ∧ fromTable t = some l ∧
          (cmp lockVersion = some .eq ∨ cmp lockVersion = some .lt))) := by
  unfold fileAfter at h ⊢
  cases hu : update c cmp old f with
  | none => rw [hu] at h; exact absurd rfl h
  | some o =>
    cases o with
    | none => rw [hu] at h; exact absurd rfl h
    | some new =>
      simp only
      unfold update at hu
      cases hl : loadState c cmp old with
      | none => rw [hl] at hu; cases hu
      | some l =>
        cases hf : f l with
        | none => rw [hl] at hu; simp only [bind, Option.bind, hf] at hu; cases hu
        | some l' =>
          rw [hl] at hu
          simp only [bind, Option.bind, hf] at hu
          have hnew : new = c.print (toTable (sort l')) := by
            split at hu
            · cases hu
            · injection hu with hu; injection hu with hu; exact hu.symm
          unfold loadState at hl
          by_cases hutf : c.utf8 old = true
          · refine ⟨hutf, l, l', hf, hnew, ?_⟩
            rw [if_neg (by simp [hutf])] at hl
            by_cases hb : c.blank old = true
            · rw [if_pos hb] at hl; injection hl with hl; exact Or.inl ⟨hb, hl.symm⟩
            · rw [if_neg hb] at hl
              right
              cases hp : c.parse old with
              | none => rw [hp] at hl; cases hl
              | some raw =>
                rw [hp] at hl
                obtain ⟨v, body⟩ := raw
                by_cases hv : v = some lockVersion
                · subst hv
                  cases body with
                  | none =>
                    simp only [bind, Option.bind, compat, if_true] at hl
                    simp only [Compat.version, Compat.migrate] at hl
                    split at hl <;> cases hl
                  | some t =>
                    cases ht : fromTable t with
                    | none =>
                      simp only [bind, Option.bind, compat, if_true, ht] at hl
                      simp only [Compat.version, Compat.migrate] at hl
                      split at hl <;> cases hl
                    | some l0 =>
                      simp only [bind, Option.bind, compat, if_true, ht] at hl
                      simp only [Compat.version, Compat.migrate] at hl
                      refine ⟨t, rfl, ?_, ?_⟩
                      · split at hl <;> first | (injection hl with hl; rw [← hl, ht]) | cases hl
                      · split at hl
                        · rename_i e; exact Or.inl e
                        · rename_i e; exact Or.inr e
                        · cases hl
                        · cases hl
                · simp only [bind, Option.bind, compat, if_neg hv] at hl
                  cases v with
                  | none => cases hl
                  | some v =>
                    simp only [Compat.version, Compat.migrate] at hl
                    split at hl <;> cases hl
          · rw [if_pos hutf] at hl; cases hl

/-- **C12**. In particular a file with another version, newer or older or not a version, is kept. -/
theorem other_version_kept (c : Codec D B T) (cmp : String → Option Ordering) (old : Bytes)
    (f : LockFile D B T → Option (LockFile D B T)) (raw : Raw D B T) (hb : c.blank old = false)
    (hp : c.parse old = some raw) (hv : raw.version ≠ some lockVersion) :
    fileAfter c cmp old f = old := by
  apply Classical.byContradiction
  intro h
  obtain ⟨-, l, l', -, -, h⟩ := only_supported_overwritten c cmp old f h
  rcases h with ⟨h, -⟩ | ⟨t, h, -, -⟩
  · rw [hb] at h; cases h
  · rw [hp] at h; injection h with h; rw [h] at hv; exact hv rfl

/-- **C12**. A version the comparison calls newer, or cannot compare, is refused with an error. -/
theorem newer_version_refused (c : Codec D B T) (cmp : String → Option Ordering) (old : Bytes)
    (f : LockFile D B T → Option (LockFile D B T)) (raw : Raw D B T) (v : String)
    (hb : c.blank old = false) (hp : c.parse old = some raw) (hv : raw.version = some v)
    (hc : cmp v = some .gt ∨ cmp v = none) : update c cmp old f = none := by
  have hk : (compat raw).version = some v := by
    unfold compat
    split
    · rename_i e
      split
      · rw [hv] at e; exact e.symm
      · exact hv
    · exact hv
  have : loadState c cmp old = none := by
    unfold loadState
    split
    · rfl
    · rw [if_neg (by simp [hb]), hp]
      simp only [bind, Option.bind, hk]
      rcases hc with h | h <;> rw [h]
  unfold update
  rw [this]
  rfl

/-- **C12**. An update that fails, and one that changes nothing, leave the file alone. -/
theorem failed_or_noop_update_kept (c : Codec D B T) (cmp : String → Option Ordering) (old : Bytes)
    (f : LockFile D B T → Option (LockFile D B T))
    (h : (∀ l, f l = none) ∨ ∃ l, loadState c cmp old = some l ∧ ∃ l', f l = some l' ∧
      c.print (toTable (sort l')) = old) : fileAfter c cmp old f = old := by
  unfold fileAfter
  rcases h with h | ⟨l, hl, l', hf, he⟩
  · have : update c cmp old f = none := by
      unfold update
      cases loadState c cmp old with
      | none => rfl
      | some l => simp only [bind, Option.bind, h]
    rw [this]
  · have : update c cmp old f = some none := by
      unfold update
      rw [hl]
      simp only [bind, Option.bind, hf, he, if_true]
    rw [this]

/-- **C13** (partial). If the process dies while the lock file is overwritten, the file holds the old
text or a prefix of the new one, nothing else. -/
theorem crash_leaves_old_or_prefix_partial (chunks : List Bytes) (old c : Bytes)
    (h : CrashState (overwrite chunks) old c) : c = old ∨ c <+: chunks.flatten := by
  have key : ∀ (chunks : List Bytes) (pre c : Bytes),
      CrashState (chunks.map .write) pre c → ∃ p, p <+: chunks.flatten ∧ c = pre ++ p := by
    intro chunks
    induction chunks with
    | nil =>
      intro pre c h
      cases h
      exact ⟨[], by simp, by simp⟩
    | cons b bs ih =>
      intro pre c h
      cases h with
      | stop => exact ⟨[], by simp, by simp⟩
      | torn _ _ _ p hp =>
        exact ⟨p, by rw [List.flatten_cons]; exact hp.trans (List.prefix_append _ _), rfl⟩
      | step _ _ _ _ h =>
        obtain ⟨p, hp, e⟩ := ih _ _ h
        refine ⟨b ++ p, ?_, by rw [e]; simp [Io.apply]⟩
        rw [List.flatten_cons]
        obtain ⟨q, hq⟩ := hp
        exact ⟨q, by rw [← hq]; simp⟩
  cases h with
  | stop => exact Or.inl rfl
  | step _ _ _ _ h =>
    right
    obtain ⟨p, hp, e⟩ := key _ _ _ h
    rw [e]
    simpa [Io.apply] using hp

/-- **C13**, refuted: whatever the old and the new text, dying right after the truncation leaves an empty
file, and the next commit treats that as a fresh lock file: all previous entries are gone. -/
theorem crash_loses_lock_file (c : Codec D B T) (cmp : String → Option Ordering) (old : Bytes)
    (chunks : List Bytes) (hb : c.blank [] = true) (hu : c.utf8 [] = true) (us : List (Update D B T)) :
    CrashState (overwrite chunks) old [] ∧
    commit c cmp [] us = c.print (toTable (sort (applyUpdates .empty us))) := by
  constructor
  · exact .step _ _ _ _ (.stop _ _)
  · exact commit_eq (by unfold loadState; simp [hb, hu]) us

/-- **C23** (partial). A resource path whose scheme and path contain no colon reads back as itself. -/
theorem resource_path_roundtrip_partial (r : ResPath) (h1 : ':' ∉ r.scheme) (h2 : ':' ∉ r.path) :
    parse (display r) = some r := parse_display h1 h2

/-- **C23**, refuted beyond that: any resource path with a colon inside is written as text that does not
read back at all. -/
theorem resource_path_with_colon_unreadable (r : ResPath) (h : ':' ∈ r.scheme ∨ ':' ∈ r.path) :
    parse (display r) = none := parse_display_none h

/-- **C23**. Reading never invents a path: what is read prints as what was read. -/
theorem resource_path_reads_exactly (s : List Char) (r : ResPath) (h : parse s = some r) :
    display r = s := by
  unfold parse at h
  have key : ∀ s : List Char, ∀ p ps, splitOn ':' s = p :: ps → s = p ++ (ps.map (fun q => ':' :: q)).flatten := by
    intro s
    induction s with
    | nil => intro p ps h; simp [splitOn] at h; simp [h.1, h.2]
    | cons x s ih =>
      intro p ps h
      rw [splitOn] at h
      split at h
      · rename_i hx
        injection h with h1 h2
        cases hs : splitOn ':' s with
        | nil => exact absurd hs (splitOn_ne_nil _ _)
        | cons q qs =>
          have := ih q qs hs
          rw [← h1, ← h2, hs, hx]
          simp [← this]
      · cases hs : splitOn ':' s with
        | nil => exact absurd hs (splitOn_ne_nil _ _)
        | cons q qs =>
          rw [hs] at h
          injection h with h1 h2
          have := ih q qs hs
          rw [← h1, ← h2]
          simp [← this]
  split at h
  · rename_i sc p e
    injection h with h
    have := key s sc [p] e
    rw [← h, this]
    simp [display]
  · cases h

/-- **C53** (partial). A lock file without colons inside resource paths and without task transforms reads
back exactly as written. -/
theorem lock_roundtrip_partial (c : Codec D B T) (hc : c.Lawful) (l : LockFile D B T) (h : Plain l) :
    read c (c.print (toTable l)) = some l := read_print hc h

/-- **C53**, refuted for tasks: every task with transforms (page selection, merging, pretty printing)
loses them when the lock file is read back. -/
theorem transforms_lost (t : Task B T) :
    readTask (emitOutput (taskTable t)) = { t with transform := [] } := by
  obtain ⟨i, d, b, tr⟩ := t
  cases tr with
  | nil => rfl
  | cons x xs => rfl

/-- **C53**. The transforms are in the file, under a key that is not read. -/
theorem transforms_written (t : Task B T) (x : T) (xs : List T) (h : t.transform = x :: xs) :
    emitOutput (taskTable t) = ⟨t.id, t.document, t.body, none, some t.transform⟩ := by
  unfold emitOutput taskTable
  simp [h]

/-- **C53**. Writing loses nothing of a task: the file of two different tasks is different. -/
theorem written_tasks_differ (t t' : Task B T) (h : emitOutput (taskTable t) = emitOutput (taskTable t')) : t = t' := by
  obtain ⟨i, d, b, tr⟩ := t
  obtain ⟨i', d', b', tr'⟩ := t'
  cases tr <;> cases tr' <;> simp_all [emitOutput, taskTable]

/-- **C53**, refuted for documents: one document with a colon in a path makes the whole lock file
unreadable, and no later commit can repair it. -/
theorem colon_bricks_lock_file (c : Codec D B T) (hc : c.Lawful) (cmp : String → Option Ordering)
    (l : LockFile D B T) (d : Doc D) (hd : d ∈ l.document) (p : ResPath) (hp : p ∈ d.paths)
    (h : ':' ∈ p.path) (us : List (Update D B T)) :
    read c (c.print (toTable l)) = none ∧
    commit c cmp (c.print (toTable l)) us = c.print (toTable l) := by
  have hread : fromTable (toTable l) = none := by
    have mapM_none : ∀ {α β : Type} (f : α → Option β) (l : List α) (a : α), a ∈ l → f a = none →
        l.mapM f = none := by
      intro α β f l a ha hf
      induction l with
      | nil => cases ha
      | cons x l ih =>
        rw [List.mapM_cons]
        rcases List.mem_cons.mp ha with e | ha
        · rw [← e, hf]; rfl
        · rw [ih ha]; cases f x <;> rfl
    unfold fromTable toTable
    simp only
    rw [mapM_none readDoc _ (docTable d) (List.mem_map_of_mem hd) ?_]
    · rfl
    · unfold readDoc docTable
      simp only
      rw [mapM_none parse _ (display p) (List.mem_map_of_mem hp) (parse_display_none (Or.inr h))]
      rfl
  have hcompat : compat ⟨some lockVersion, some (toTable l)⟩ = .other (some lockVersion) := by
    unfold compat
    rw [if_pos rfl]
    simp only [Option.bind_some, hread]
  constructor
  · unfold read
    rw [if_neg (by simp [hc.utf8]), hc.parse]
    simp only [Option.bind_some, hcompat, Compat.migrate]
  · apply Classical.byContradiction
    intro hne
    obtain ⟨-, l1, l', -, -, h⟩ := only_supported_overwritten c cmp _ _ hne
    rcases h with ⟨h, -⟩ | ⟨t, h, h', -⟩
    · rw [hc.notBlank] at h; cases h
    · rw [hc.parse] at h
      injection h with h; injection h with _ h; injection h with h
      rw [← h, hread] at h'
      cases h'

/-! Non-vacuity: a lawful text layer exists, and a concrete history exercises replacement, sorting and
route order. -/

instance : Encodable Char :=
  Encodable.ofLeftInverse Char.toNat Char.ofNat fun c => by simp

instance : Encodable String :=
  Encodable.ofLeftInverse String.toList String.ofList fun s => by simp

deriving instance Encodable for DocTable, TaskTable, Route, Table

/-- A numbering of the tables stands in for TOML. -/
def numbering : Codec Nat Nat Nat where
  utf8 _ := true
  blank b := b.isEmpty
  parse b := match b with
    | [0, n] => (Encodable.decode n).map fun t => ⟨some lockVersion, some t⟩
    | [v] => some ⟨some (toString v), none⟩
    | _ => none
  print t := [0, Encodable.encode t]

theorem numbering_lawful : numbering.Lawful where
  utf8 _ := rfl
  notBlank _ := rfl
  parse t := by simp [numbering]

example : (sort (applyUpdates (.empty : LockFile Nat Nat Nat)
      [.document ⟨"b", [], 1⟩, .route ⟨"b", 0⟩, .document ⟨"a", [], 2⟩, .route ⟨"a", 0⟩,
       .document ⟨"b", [], 3⟩, .route ⟨"b", 1⟩, .task ⟨"t", "b", 7, []⟩])) =
    ⟨[⟨"a", [], 2⟩, ⟨"b", [], 3⟩], [⟨"t", "b", 7, []⟩], [⟨"a", 0⟩, ⟨"b", 1⟩]⟩ := by
  simp [applyUpdates, applyUpdate, replaceDocument, replaceRoute, replaceTask, upsert, LockFile.empty,
    sort, List.mergeSort, List.MergeSort.Internal.splitInTwo, docLe]

example : parse (display ⟨"file".toList, "a/b.typ".toList⟩) = some ⟨"file".toList, "a/b.typ".toList⟩ ∧
    parse (display ⟨"file".toList, "a:b.typ".toList⟩) = none := by decide

end Tinymist.Lock
