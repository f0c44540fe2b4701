import Verif.Lemmas.VfsRun
/-!
# C03, C04, C05, C47: reading files

`Model/Vfs.lean` is the model, `Spec/Vfs.lean` says what reads should give.
-/
namespace Tinymist.Vfs
variable {Path Fid V : Type} [DecidableEq Path] [DecidableEq Fid]

/-! ## C03: reads see the newest layer -/

/-- C03. After any history of edits, reads, evictions and changes of the disk, reading a file gives the
buffer registered for it, else the buffer of its path, else what the watcher last delivered, else a content
the disk has held (`P` is any property of the contents the disk was given). -/
theorem read_newest_layer (resolve : Fid → Except V Path) (disk : Path → V) (ops : List (LiveOp Path Fid V))
    (P : Path → V → Prop) (hd : DiskIn P disk (ops.map LiveOp.toOp)) (f : Fid) :
    ∃ v, readResult resolve (run resolve (init disk) (ops.map LiveOp.toOp)) 0 f = some v ∧
      (originAfter resolve (editsOf ops) f).Gives P v := by
  obtain ⟨H, h, hl⟩ := live_run (live_init (resolve := resolve) disk hd.1) layers_nil ops hd.2
  obtain ⟨v, h1, h2⟩ := live_readResult h f
  rw [List.nil_append] at hl
  rw [layers_origin hl] at h2
  exact ⟨v, h1, h2⟩

/-- C03, freshness. Once an edit is about path `p` (a buffer opened or closed there, a watcher report naming
it), a later read that falls through to the disk gives a content the disk held at `p` at that moment or
later, never an older one. -/
theorem read_not_older_than_report (resolve : Fid → Except V Path) (disk : Path → V)
    (before after : List (LiveOp Path Fid V)) (e : Edit Path Fid V) (p : Path) (hm : e.Mentions p) (P : V → Prop)
    (h0 : P ((run resolve (init disk) (before.map LiveOp.toOp)).disk p))
    (h1 : ∀ v, LiveOp.disk p v ∈ after → P v) (f : Fid) :
    ∃ v, readResult resolve (run resolve (init disk) ((before ++ [LiveOp.edit [e]] ++ after).map LiveOp.toOp)) 0 f =
        some v ∧
      (originAfter resolve (editsOf (before ++ [LiveOp.edit [e]] ++ after)) f).Gives (fun q x => q = p → P x) v := by
  obtain ⟨H, h, hl⟩ := live_run (live_init (resolve := resolve) (P := fun _ _ => True) disk (fun _ => trivial))
    layers_nil before (by
      intro op _; unfold Op.Writes; split <;> trivial)
  obtain ⟨H', h', ham⟩ := live_refresh h e p hm (fun q x => q = p → P x) (fun q v hq e => absurd e hq)
    (fun _ => h0)
  have hl' : Layers H'.am (editsOf (before ++ [LiveOp.edit [e]])) := by
    rw [ham, editsOf_append]
    have := layers_revising (w := run resolve (init disk) (before.map LiveOp.toOp)) hl [e]
    simpa [editsOf] using this
  obtain ⟨K, k1, k2⟩ := live_run h' hl' after (by
    intro op ho
    obtain ⟨lo, l1, l2⟩ := List.mem_map.mp ho
    subst l2
    cases lo with
    | disk q v => intro e; subst e; exact h1 v l1
    | edit es => trivial
    | read g => trivial
    | evict t => trivial)
  obtain ⟨v, v1, v2⟩ := live_readResult k1 f
  rw [← editsOf_append, List.append_assoc] at k2
  rw [layers_origin k2] at v2
  refine ⟨v, ?_, by rw [List.append_assoc]; exact v2⟩
  rw [List.map_append, List.map_append, run, List.foldl_append, List.foldl_append]
  exact v1

/-- A file read from disk, opened in the editor, closed again after the disk changed. -/
example :
    let ops : List (LiveOp Nat Nat Nat) :=
      [.read 7, .edit [.notify [] [(7, 150)]], .read 7, .edit [.mapShadow 7 200], .read 7, .disk 7 300]
    let at_ := fun ops : List (LiveOp Nat Nat Nat) =>
      readResult (fun f => .ok f) (run (fun f => .ok f) (init fun p => 100 + p) (ops.map LiveOp.toOp)) 0 7
    at_ [] = some 107 ∧ at_ (ops.take 3) = some 150 ∧ at_ ops = some 200 ∧
    at_ (ops ++ [LiveOp.edit [.unmapShadow 7]]) = some 150 ∧
    at_ (ops ++ [LiveOp.edit [.unmapShadow 7, .notify [7] []]]) = some 300 := by decide

/-! ## C04: snapshots -/

/-- C04, repeatable reads: what a handle (a live file system or a snapshot) read once it reads again, whatever
happens to the disk and to all other handles meanwhile, as long as the handle itself is not edited and no
cache entries are evicted. -/
theorem repeatable_read (resolve : Fid → Except V Path) (disk : Path → V) (before after : List (Op Path Fid V))
    (k : Nat) (f : Fid) (v : V) (h : readResult resolve (run resolve (init disk) before) k f = some v)
    (h1 : ∀ op ∈ after, ¬ op.Evicts) (h2 : ∀ op ∈ after, ¬ op.Edits k) :
    readResult resolve (run resolve (init disk) (before ++ [.read k f] ++ after)) k f = some v := by
  obtain ⟨c, x, hh, hx⟩ := read_holds h
  have hw : Wf (run resolve (init disk) (before ++ [.read k f])) := wf_run (wf_init disk) _
  have e : run resolve (init disk) (before ++ [.read k f]) = read resolve (run resolve (init disk) before) k f := by
    rw [run, List.foldl_append]; rfl
  rw [e] at hw
  have := run_keeps (resolve := resolve) hw after h1 h2 hh
  rw [← hx]
  have e2 : run resolve (init disk) (before ++ [.read k f] ++ after) =
      run resolve (read resolve (run resolve (init disk) before) k f) after := by
    rw [← e, run, run, List.foldl_append, run]
  rw [e2]
  exact readResult_of_holds this

/-- C04, partial: on schedules where no edit of a handle overlaps a read under way on a handle sharing its
cache (and the other two conditions of `CalmStep`), every handle reads according to its own edits — those
made on it and, before the snapshot was taken, on its parent — whatever is done to other handles.
Missing: the schedules excluded by `Calm`, where the code does violate this (see the theorems below). -/
theorem snapshot_isolated_partial (resolve : Fid → Except V Path) (disk : Path → V) (ops : List (Op Path Fid V))
    (hc : Calm resolve (init disk) ops) (P : Path → V → Prop) (hd : DiskIn P disk ops) (k : Nat)
    (es : List (Edit Path Fid V)) (hk : (histories ops).2 k = some es) (f : Fid) :
    ∃ v, readResult resolve (run resolve (init disk) ops) k f = some v ∧ (originAfter resolve es f).Gives P v := by
  have hinv := inv_run (inv_init (resolve := resolve) disk hd.1) ops hc hd.2
  have hrel := histRel_run (resolve := resolve) ops disk
  cases hh : (run resolve (init disk) ops).handles k with
  | none => rw [(hrel.2 k).1.mpr hh] at hk; cases hk
  | some H =>
    obtain ⟨v, v1, v2⟩ := inv_readResult hinv hh f
    rw [layers_origin ((hrel.2 k).2 es H hk hh)] at v2
    exact ⟨v, v1, v2⟩

/-- A calm schedule with a snapshot that reads a file for the first time after the live file system has an
editor buffer for it: both read their own content. -/
example :
    let res : Nat → Except Nat Nat := fun f => .ok f
    let ops : List (Op Nat Nat Nat) :=
      [.read 0 7, .snapshot 0, .revise 0 [.mapShadow 7 200], .read 0 7, .read 1 8, .revise 0 [.mapShadow 8 300]]
    Calm res (init fun p => 100 + p) ops ∧ (histories ops).2 1 = some [] ∧
    (histories ops).2 0 = some [.mapShadow 7 200, .mapShadow 8 300] ∧
    readResult res (run res (init fun p => 100 + p) ops) 1 7 = some 107 ∧
    readResult res (run res (init fun p => 100 + p) ops) 0 7 = some 200 ∧
    readResult res (run res (init fun p => 100 + p) ops) 0 8 = some 300 := by
  refine ⟨⟨trivial, trivial, ?_, trivial, trivial, ?_, trivial⟩, rfl, rfl, rfl, rfl, rfl⟩ <;>
  · intro H hH
    injection hH with hH
    subst hH
    exact ⟨fun _ h => (by cases h), fun e he => (by cases List.mem_singleton.mp he; trivial), Or.inl rfl⟩

/-- The full claim of C04 about contents: every handle reads according to its own edits. -/
def ReadsOwnEdits (resolve : Nat → Except Nat Nat) (disk : Nat → Nat) (ops : List (Op Nat Nat Nat)) : Prop :=
  ∀ k es f, (histories ops).2 k = some es →
    ∃ v, readResult resolve (run resolve (init disk) ops) k f = some v ∧
      (originAfter resolve es f).Gives (fun p v => v = disk p) v

/-- C04 fails when a read on a snapshot overlaps an edit: the snapshot has looked up the cell of a file, the
live file system gets an editor buffer for it (nothing to invalidate yet), the snapshot fills the cell from
disk, and the live file system, which copied the cell, reads the old content in its new revision. -/
theorem not_isolated_when_read_overlaps_edit :
    ¬ ∀ ops, (∀ op ∈ ops, ¬ op.Evicts) → ReadsOwnEdits (fun f => .ok f) (fun p => 100 + p) ops := by
  intro h
  have := h [.snapshot 0, .beginRead 1 7, .revise 0 [.mapShadow 7 200], .finishRead 0] (by
    intro op ho; simp only [List.mem_cons, List.not_mem_nil, or_false] at ho
    rcases ho with rfl | rfl | rfl | rfl <;> exact id) 0 [.mapShadow 7 200] 7 rfl
  obtain ⟨v, h1, h2⟩ := this
  have h1 : some 107 = some v := h1
  have h2 : v = 200 := h2
  injection h1 with h1
  omega

/-- The other direction of the same race: the snapshot returns the buffer opened after it was taken. -/
theorem snapshot_sees_later_edit :
    let ops : List (Op Nat Nat Nat) := [.snapshot 0, .beginRead 1 7, .revise 0 [.mapShadow 7 200], .read 0 7,
      .finishRead 0]
    (histories ops).2 1 = some [] ∧
    readResult (fun f => .ok f) (run (fun f => .ok f) (init fun p => 100 + p) ops) 1 7 = some 200 :=
  ⟨rfl, rfl⟩

/-- C04 fails without any overlap when a watcher report names a file not read yet: the report invalidates
nothing, so the live file system keeps sharing its cache with the snapshot, and the snapshot's first read
leaves the old content for the live file system. -/
theorem not_isolated_after_report_of_unread_file :
    let ops : List (Op Nat Nat Nat) := [.snapshot 0, .revise 0 [.notify [] [(7, 200)]], .read 1 7]
    (histories ops).2 0 = some [.notify [] [(7, 200)]] ∧
    readResult (fun f => .ok f) (run (fun f => .ok f) (init fun p => 100 + p) ops) 0 7 = some 107 :=
  ⟨rfl, rfl⟩

/-- C04 fails for buffers registered by id for a file that also has a path: after the buffer is removed the
file is not filed under its path, so opening a buffer for the path does not invalidate it. -/
theorem not_isolated_after_buffer_by_id :
    let ops : List (Op Nat Nat Nat) :=
      [.revise 0 [.mapShadowById 7 200], .revise 0 [.removeShadowById 7], .snapshot 0,
       .revise 0 [.mapShadow 7 300], .read 1 7]
    (histories ops).2 0 = some [.mapShadowById 7 200, .removeShadowById 7, .mapShadow 7 300] ∧
    readResult (fun f => .ok f) (run (fun f => .ok f) (init fun p => 100 + p) ops) 0 7 = some 107 :=
  ⟨rfl, rfl⟩

/-- Repeatable reads do fail with the evictions the compiler makes (threshold 60, `compiler.rs:912`): a file
read long ago is dropped from the cache shared with the snapshot, which then reads the disk again. -/
theorem eviction_breaks_repeatable_read :
    let before : List (Op Nat Nat Nat) :=
      .read 0 7 :: List.replicate 61 (.revise 0 [.mapShadow 8 1]) ++ [.snapshot 0]
    let after : List (Op Nat Nat Nat) := [.read 1 7, .disk 7 500, .evict 0 60]
    let res : Nat → Except Nat Nat := fun f => .ok f
    readResult res (run res (init fun p => 100 + p) before) 1 7 = some 107 ∧
    readResult res (run res (init fun p => 100 + p) (before ++ after)) 1 7 = some 500 := by
  refine ⟨by decide +kernel, by decide +kernel⟩

/-! ## C05: the clean-compile check -/

/-- C05, partial: a compilation runs on a snapshot of the live file system and reads its dependencies before
the live file system is edited again; then, after any further operations without evictions and cache
resets, a positive answer of the check means that every dependency reads, on the live file system, exactly as
the compilation saw it.
Missing: dependencies first read after the live file system was edited, evictions and resets, for all of which
the check does give wrong answers (see below). -/
theorem clean_check_sound_partial (resolve : Fid → Except V Path) (disk : Path → V)
    (before during after : List (Op Path Fid V)) (k : Nat) (K : Handle Path Fid V)
    (hk : k = (run resolve (init disk) before).nextHandle)
    (hd : ∀ op ∈ during, ¬ op.Evicts ∧ ¬ op.Edits 0 ∧ ¬ op.Edits k)
    (ha : ∀ op ∈ after, ¬ op.Evicts ∧ ¬ op.Resets 0)
    (hK : (run resolve (init disk) (before ++ [.snapshot 0])).handles k = some K)
    (deps : List Fid) (seen : Fid → V)
    (hs : ∀ f ∈ deps, cached (run resolve (init disk) (before ++ [.snapshot 0] ++ during)) k f = some (seen f))
    (hclean : isCleanCompile (run resolve (init disk) (before ++ [.snapshot 0] ++ during ++ after)) 0
      K.revision deps = true) :
    ∀ f ∈ deps,
      readResult resolve (run resolve (init disk) (before ++ [.snapshot 0] ++ during ++ after)) 0 f =
        some (seen f) := by
  intro f hf
  have hw0 : Wf (run resolve (init disk) (before ++ [.snapshot 0])) := wf_run (wf_init disk) _
  have h0 : (run resolve (init disk) (before ++ [.snapshot 0])).handles 0 = some K := by
    have hw : Wf (run resolve (init disk) before) := wf_run (wf_init disk) _
    rw [run, List.foldl_append] at hK ⊢
    change (snapshot (run resolve (init disk) before) 0).handles _ = _ at hK
    change (snapshot (run resolve (init disk) before) 0).handles _ = _
    unfold snapshot at hK ⊢
    cases hh : (run resolve (init disk) before).handles 0 with
    | none =>
      rw [hh] at hK
      simp only at hK
      have := hw.h_lt _ _ hK
      omega
    | some H =>
      rw [hh] at hK
      simp only [hk, set_eq] at hK ⊢
      injection hK with hK
      subst hK
      rw [set_ne _ _ (by have := hw.h_lt _ _ hh; omega)]
      exact hh
  have keep : ∀ (ops : List (Op Path Fid V)) (w : World Path Fid V) (j : Nat) (J : Handle Path Fid V), Wf w →
      (∀ op ∈ ops, ¬ op.Edits j) → w.handles j = some J → (run resolve w ops).handles j = some J := by
    intro ops
    induction ops with
    | nil => exact fun _ _ _ _ _ h => h
    | cons op ops ih =>
      intro w j J hw ho hj
      exact ih _ j J (wf_step hw op) (fun o h => ho o (List.mem_cons_of_mem _ h))
        (step_keeps_handle hw op (ho op (List.mem_cons_self ..)) hj)
  have run2 : ∀ a b : List (Op Path Fid V), run resolve (init disk) (a ++ b) = run resolve (run resolve (init disk) a) b := by
    intro a b; rw [run, List.foldl_append]; rfl
  generalize hwd : run resolve (init disk) (before ++ [.snapshot 0] ++ during) = wd at *
  have hwd' : wd = run resolve (run resolve (init disk) (before ++ [.snapshot 0])) during := by rw [← hwd, run2]
  have hwfd : Wf wd := by rw [hwd']; exact wf_run hw0 _
  have a0 : wd.handles 0 = some K := by
    rw [hwd']; exact keep during _ 0 K hw0 (fun op ho => (hd op ho).2.1) h0
  have ak : wd.handles k = some K := by
    rw [hwd']; exact keep during _ k K hw0 (fun op ho => (hd op ho).2.2) hK
  obtain ⟨c, x, ⟨K', e, b1, b2, b3, b4⟩, hx⟩ := cached_holds (hs f hf)
  rw [ak] at b1
  injection b1 with b1
  subst b1
  rw [run2, hwd] at hclean ⊢
  have ht := tracks_run (resolve := resolve) hwfd after (fun o ho => (ha o ho).1) (fun o ho => (ha o ho).2)
    (r := K.revision) (f := f) (c := c) ⟨K, e, a0, Nat.le_refl _, b2, Or.inl b3⟩
  obtain ⟨H, e', c1, c2, c3, c4⟩ := ht
  unfold isCleanCompile at hclean
  rw [c1] at hclean
  simp only [List.all_eq_true] at hclean
  have := hclean f hf
  rw [c3] at this
  have this : e'.changedAt ≤ K.revision := of_decide_eq_true this
  have hc : e'.cell = c := by
    rcases c4 with c4 | c4
    · exact c4
    · omega
  rw [← hx]
  exact readResult_of_holds ⟨H, e', c1, c3, hc, run_keeps_bytes after b4⟩

/-- The hypotheses are met by a compilation that read two files, one of which is edited and closed again
elsewhere: the check is positive for the untouched file and negative for the edited one. -/
example :
    let res : Nat → Except Nat Nat := fun f => .ok f
    let all : List (Op Nat Nat Nat) :=
      [.read 0 7, .snapshot 0, .read 1 7, .read 1 8, .revise 0 [.mapShadow 8 200], .read 0 9]
    isCleanCompile (run res (init fun p => 100 + p) all) 0 2 [7] = true ∧
    isCleanCompile (run res (init fun p => 100 + p) all) 0 2 [7, 8] = false := ⟨rfl, rfl⟩

/-- C05: right after a cache reset no compilation that depends on anything is called clean. -/
theorem reset_is_dirty (resolve : Fid → Except V Path) (disk : Path → V) (ops : List (Op Path Fid V))
    (es : List (Edit Path Fid V)) (h rev : Nat) (deps : List Fid) (hd : deps ≠ []) :
    isCleanCompile (run resolve (init disk) (ops ++ [.revise h (es ++ [.resetCache])])) h rev deps = false := by
  rw [run, List.foldl_append]
  change isCleanCompile (revise (run resolve (init disk) ops) h (es ++ [.resetCache])) h rev deps = false
  generalize run resolve (init disk) ops = w
  unfold isCleanCompile revise
  cases hh : w.handles h with
  | none => simp only [hh]
  | some H =>
    have hr : revising w H (es ++ [.resetCache]) =
        { revising w H es with changed := true, managed := fun _ => none, paths := .empty } := by
      unfold revising; rw [List.foldl_append]; rfl
    simp only [hr, if_true, set_eq]
    cases deps with
    | nil => exact absurd rfl hd
    | cons f l => rfl

/-- A positive answer before the reset, a negative one after it. -/
example :
    let res : Nat → Except Nat Nat := fun f => .ok f
    isCleanCompile (run res (init fun p => 100 + p) ([.read 0 7] : List (Op Nat Nat Nat))) 0 2 [7] = true ∧
    isCleanCompile (run res (init fun p => 100 + p) ([.read 0 7, .revise 0 [.resetCache]] : List (Op Nat Nat Nat))) 0 2 [7] = false :=
  ⟨rfl, rfl⟩

/-- C05 fails: the compilation's snapshot (revision 2) first reads file 7 after the live file system got an
editor buffer for it and somebody read the buffer there. The check calls the compilation clean although the
file differs. -/
theorem clean_check_wrong_when_edit_overtakes_read :
    let res : Nat → Except Nat Nat := fun f => .ok f
    let w := run res (init fun p => 100 + p)
      [.snapshot 0, .revise 0 [.mapShadow 7 200], .read 0 7, .read 1 7]
    cached w 1 7 = some 107 ∧ (w.handles 1).map (·.revision) = some 2 ∧ isCleanCompile w 0 2 [7] = true ∧
    readResult res w 0 7 = some 200 := ⟨rfl, rfl, rfl, rfl⟩

/-- C05 fails after a cache reset: the entry made by the next read counts as never changed. -/
theorem clean_check_wrong_after_reset :
    let res : Nat → Except Nat Nat := fun f => .ok f
    let w := run res (init fun p => 100 + p)
      [.snapshot 0, .read 1 7, .disk 7 500, .revise 0 [.resetCache], .read 0 7]
    cached w 1 7 = some 107 ∧ (w.handles 1).map (·.revision) = some 2 ∧ isCleanCompile w 0 2 [7] = true ∧
    readResult res w 0 7 = some 500 := ⟨rfl, rfl, rfl, rfl⟩

/-- C05 fails after an eviction with the compiler's threshold: the entry of a file just invalidated by an edit
counts as last read at revision 0, is evicted, and the entry made by the next read counts as never changed. -/
theorem clean_check_wrong_after_eviction :
    let res : Nat → Except Nat Nat := fun f => .ok f
    let w := run res (init fun p => 100 + p) (List.replicate 60 (.revise 0 [.mapShadow 8 1]) ++
      [.snapshot 0, .read 1 7, .revise 0 [.mapShadow 7 200], .evict 0 60, .read 0 7])
    cached w 1 7 = some 107 ∧ (w.handles 1).map (·.revision) = some 62 ∧ isCleanCompile w 0 62 [7] = true ∧
    readResult res w 0 7 = some 200 := by
  refine ⟨by decide +kernel, by decide +kernel, by decide +kernel, by decide +kernel⟩

/-! ## C47: temporary file contents -/

theorem withShadowFile_eq (resolve : Fid → Except V Path) (disk : Path → V) (ops : List (LiveOp Path Fid V))
    (p : Path) (v : V) (query : List (LiveOp Path Fid V)) :
    withShadowFile resolve (run resolve (init disk) (ops.map LiveOp.toOp)) 0 p v (query.map LiveOp.toOp) =
    run resolve (init disk) ((ops ++ [LiveOp.edit [.mapShadow p v]] ++ query ++ [LiveOp.edit [.unmapShadow p]]).map LiveOp.toOp) := by
  simp only [withShadowFile, run, List.map_append, List.foldl_append]
  rfl

theorem withShadowFileById_eq (resolve : Fid → Except V Path) (disk : Path → V) (ops : List (LiveOp Path Fid V))
    (f : Fid) (v : V) (query : List (LiveOp Path Fid V)) :
    withShadowFileById resolve (run resolve (init disk) (ops.map LiveOp.toOp)) 0 f v (query.map LiveOp.toOp) =
    run resolve (init disk) ((ops ++ [LiveOp.edit [.mapShadowById f v]] ++ query ++ [LiveOp.edit [.removeShadowById f]]).map LiveOp.toOp) := by
  simp only [withShadowFileById, run, List.map_append, List.foldl_append]
  rfl

/-- C47, partial: when the path has no editor buffer before, then after running a query with a temporary
content at the path (the query may read, evict, and the disk may change, but it makes no edits of its own)
every file reads as if nothing had happened.  Missing: paths that do have a buffer, see below. -/
theorem shadow_undone_partial (resolve : Fid → Except V Path) (disk : Path → V) (ops query : List (LiveOp Path Fid V))
    (p : Path) (v : V) (hq : editsOf query = []) (hb : bufferAfter (editsOf ops) p = none)
    (P : Path → V → Prop) (hd : DiskIn P disk ((ops ++ query).map LiveOp.toOp)) (f : Fid) :
    ∃ x, readResult resolve
        (withShadowFile resolve (run resolve (init disk) (ops.map LiveOp.toOp)) 0 p v (query.map LiveOp.toOp)) 0 f =
        some x ∧ (originAfter resolve (editsOf ops) f).Gives P x := by
  rw [withShadowFile_eq]
  obtain ⟨x, x1, x2⟩ := read_newest_layer resolve disk
    (ops ++ [LiveOp.edit [.mapShadow p v]] ++ query ++ [LiveOp.edit [.unmapShadow p]]) P ⟨hd.1, by
      intro op ho
      simp only [List.map_append, List.mem_append, List.map_cons, List.map_nil, List.mem_singleton] at ho
      rcases ho with ((ho | rfl) | ho) | rfl
      · exact hd.2 op (by rw [List.map_append]; exact List.mem_append_left _ ho)
      · trivial
      · exact hd.2 op (by rw [List.map_append]; exact List.mem_append_right _ ho)
      · trivial⟩ f
  refine ⟨x, x1, ?_⟩
  have e : editsOf (ops ++ [LiveOp.edit [.mapShadow p v]] ++ query ++ [LiveOp.edit [.unmapShadow p]]) =
      editsOf ops ++ [.mapShadow p v, .unmapShadow p] := by
    simp only [editsOf_append, hq, editsOf, List.append_nil, List.append_assoc]; rfl
  rw [e] at x2
  have same : originAfter resolve (editsOf ops ++ [.mapShadow p v, .unmapShadow p]) f =
      originAfter resolve (editsOf ops) f := by
    unfold originAfter idBufferAfter notifiedAfter
    simp only [List.foldl_append, List.foldl_cons, List.foldl_nil]
    have hbuf : ∀ q, bufferAfter (editsOf ops ++ [.mapShadow p v, .unmapShadow p]) q = bufferAfter (editsOf ops) q := by
      intro q
      unfold bufferAfter at hb ⊢
      simp only [List.foldl_append, List.foldl_cons, List.foldl_nil]
      by_cases hq : q = p
      · subst hq; rw [set_eq, hb]
      · rw [set_ne _ _ hq, set_ne _ _ hq]
    simp only [hbuf]
  rw [same] at x2
  exact x2

/-- The same for temporary contents by file id. -/
theorem shadow_by_id_undone_partial (resolve : Fid → Except V Path) (disk : Path → V)
    (ops query : List (LiveOp Path Fid V))
    (g : Fid) (v : V) (hq : editsOf query = []) (hb : idBufferAfter (editsOf ops) g = none)
    (P : Path → V → Prop) (hd : DiskIn P disk ((ops ++ query).map LiveOp.toOp)) (f : Fid) :
    ∃ x, readResult resolve
        (withShadowFileById resolve (run resolve (init disk) (ops.map LiveOp.toOp)) 0 g v (query.map LiveOp.toOp)) 0 f =
        some x ∧ (originAfter resolve (editsOf ops) f).Gives P x := by
  rw [withShadowFileById_eq]
  obtain ⟨x, x1, x2⟩ := read_newest_layer resolve disk
    (ops ++ [LiveOp.edit [.mapShadowById g v]] ++ query ++ [LiveOp.edit [.removeShadowById g]]) P ⟨hd.1, by
      intro op ho
      simp only [List.map_append, List.mem_append, List.map_cons, List.map_nil, List.mem_singleton] at ho
      rcases ho with ((ho | rfl) | ho) | rfl
      · exact hd.2 op (by rw [List.map_append]; exact List.mem_append_left _ ho)
      · trivial
      · exact hd.2 op (by rw [List.map_append]; exact List.mem_append_right _ ho)
      · trivial⟩ f
  refine ⟨x, x1, ?_⟩
  have e : editsOf (ops ++ [LiveOp.edit [.mapShadowById g v]] ++ query ++ [LiveOp.edit [.removeShadowById g]]) =
      editsOf ops ++ [.mapShadowById g v, .removeShadowById g] := by
    simp only [editsOf_append, hq, editsOf, List.append_nil, List.append_assoc]; rfl
  rw [e] at x2
  have same : originAfter resolve (editsOf ops ++ [.mapShadowById g v, .removeShadowById g]) f =
      originAfter resolve (editsOf ops) f := by
    have hbuf : ∀ q, idBufferAfter (editsOf ops ++ [.mapShadowById g v, .removeShadowById g]) q =
        idBufferAfter (editsOf ops) q := by
      intro q
      unfold idBufferAfter at hb ⊢
      simp only [List.foldl_append, List.foldl_cons, List.foldl_nil]
      by_cases hq : q = g
      · subst hq; rw [set_eq, hb]
      · rw [set_ne _ _ hq, set_ne _ _ hq]
    unfold originAfter bufferAfter notifiedAfter
    simp only [List.foldl_append, List.foldl_cons, List.foldl_nil, hbuf]
  rw [same] at x2
  exact x2

/-- During the query the path does read as the temporary content. -/
theorem shadow_visible_to_query (resolve : Fid → Except V Path) (disk : Path → V) (ops : List (LiveOp Path Fid V))
    (p : Path) (v : V) (f : Fid) (hf : resolve f = .ok p) (hid : idBufferAfter (editsOf ops) f = none) :
    readResult resolve (run resolve (init disk) ((ops ++ [LiveOp.edit [.mapShadow p v]]).map LiveOp.toOp)) 0 f = some v := by
  obtain ⟨x, x1, x2⟩ := read_newest_layer resolve disk (ops ++ [LiveOp.edit [.mapShadow p v]]) (fun _ _ => True)
    ⟨fun _ => trivial, fun op _ => by unfold Op.Writes; split <;> trivial⟩ f
  rw [editsOf_append] at x2
  simp only [editsOf, List.append_nil] at x2
  have : originAfter resolve (editsOf ops ++ [.mapShadow p v]) f = .memory v := by
    unfold originAfter
    have h1 : idBufferAfter (editsOf ops ++ [.mapShadow p v]) f = none := by
      unfold idBufferAfter at hid ⊢
      simpa only [List.foldl_append, List.foldl_cons, List.foldl_nil] using hid
    have h2 : bufferAfter (editsOf ops ++ [.mapShadow p v]) p = some v := by
      unfold bufferAfter
      simp only [List.foldl_append, List.foldl_cons, List.foldl_nil, set_eq]
    rw [h1]
    simp only [hf, h2]
  rw [this] at x2
  rw [x1, x2]

/-- C47 fails when the path has an editor buffer: the temporary content replaces it and its removal removes
the buffer, so the file reads from disk afterwards. -/
theorem shadow_not_undone_over_buffer :
    let res : Nat → Except Nat Nat := fun f => .ok f
    let w := run res (init fun p => 100 + p) [.revise 0 [.mapShadow 7 200]]
    readResult res w 0 7 = some 200 ∧
    readResult res (withShadowFile res w 0 7 300 [.read 0 7]) 0 7 = some 107 := ⟨rfl, rfl⟩

/-- A case for the positive theorems: the path has watcher content and no buffer. -/
example :
    let res : Nat → Except Nat Nat := fun f => .ok f
    let ops : List (LiveOp Nat Nat Nat) := [.edit [.notify [] [(7, 150)]], .read 7]
    bufferAfter (editsOf ops) 7 = none ∧
    readResult res (withShadowFile res (run res (init fun p => 100 + p) (ops.map LiveOp.toOp)) 0 7 300 [.read 0 7]) 0 7 =
      some 150 := ⟨rfl, rfl⟩

end Tinymist.Vfs
