import Verif.Lemmas.Keyed
import Verif.Spec.Lock
namespace Tinymist.Lock
open ResourcePath
variable {D B T : Type}

theorem docs_apply (l : LockFile D B T) (us : List (Update D B T)) :
    (applyUpdates l us).document = (docUpdates us).foldl (fun l x => upsert Doc.id x l) l.document := by
  unfold applyUpdates
  induction us generalizing l with
  | nil => rfl
  | cons u us ih => cases u <;> exact ih _

theorem tasks_apply (l : LockFile D B T) (us : List (Update D B T)) :
    (applyUpdates l us).task = (taskUpdates us).foldl (fun l x => upsert Task.id x l) l.task := by
  unfold applyUpdates
  induction us generalizing l with
  | nil => rfl
  | cons u us ih => cases u <;> exact ih _

theorem keepLast_filter (rs : List Route) (id : String) :
    keepLast (rs.filter fun r => r.id ≠ id) = (keepLast rs).filter fun r => r.id ≠ id := by
  induction rs with
  | nil => rfl
  | cons r rs ih =>
    by_cases hr : r.id = id
    · have h1 : (r :: rs).filter (fun r => decide (r.id ≠ id)) = rs.filter fun r => decide (r.id ≠ id) := by
        simp [hr]
      rw [h1, ih, keepLast]
      split
      · rfl
      · simp [hr]
    · have h1 : (r :: rs).filter (fun r => decide (r.id ≠ id)) = r :: rs.filter fun r => decide (r.id ≠ id) := by
        simp [hr]
      rw [h1, keepLast, keepLast, ih]
      have : (∃ q ∈ rs.filter (fun r => decide (r.id ≠ id)), q.id = r.id) ↔ ∃ q ∈ rs, q.id = r.id := by
        constructor
        · rintro ⟨q, hq, e⟩; exact ⟨q, (List.mem_filter.mp hq).1, e⟩
        · rintro ⟨q, hq, e⟩; exact ⟨q, List.mem_filter.mpr ⟨hq, by simp [e, hr]⟩, e⟩
      by_cases hx : ∃ q ∈ rs, q.id = r.id
      · rw [if_pos (this.mpr hx), if_pos hx]
      · rw [if_neg (fun h => hx (this.mp h)), if_neg hx]
        simp [hr]

theorem keepLast_snoc (rs : List Route) (r : Route) :
    keepLast (rs ++ [r]) = (keepLast rs).filter (fun q => q.id ≠ r.id) ++ [r] := by
  induction rs with
  | nil => simp [keepLast]
  | cons q rs ih =>
    rw [List.cons_append, keepLast, keepLast, ih]
    by_cases hq : q.id = r.id
    · rw [if_pos ⟨r, by simp, hq.symm⟩]
      split
      · rfl
      · simp [hq]
    · have : (∃ p ∈ rs ++ [r], p.id = q.id) ↔ ∃ p ∈ rs, p.id = q.id := by
        constructor
        · rintro ⟨p, hp, e⟩
          rcases List.mem_append.mp hp with hp | hp
          · exact ⟨p, hp, e⟩
          · rw [List.mem_singleton.mp hp] at e; exact absurd e.symm hq
        · rintro ⟨p, hp, e⟩; exact ⟨p, List.mem_append_left _ hp, e⟩
      by_cases hx : ∃ p ∈ rs, p.id = q.id
      · rw [if_pos (this.mpr hx), if_pos hx]
      · rw [if_neg (fun h => hx (this.mp h)), if_neg hx]
        simp [hq]

theorem routeUpdates_snoc (us : List (Update D B T)) (u : Update D B T) :
    routeUpdates (us ++ [u]) = routeUpdates us ++ routeUpdates [u] := by
  induction us with
  | nil => simp [routeUpdates]
  | cons x us ih => cases x <;> simp [routeUpdates, ih]

theorem routes_apply (l : LockFile D B T) (us : List (Update D B T)) :
    (applyUpdates l us).route =
      l.route.filter (fun r => ∀ q ∈ routeUpdates us, q.id ≠ r.id) ++ keepLast (routeUpdates us) := by
  unfold applyUpdates
  induction us using Util.reverseInd with
  | nil =>
    simp only [List.foldl_nil, routeUpdates, keepLast, List.append_nil]
    rw [List.filter_eq_self.mpr]
    intro a _; simp
  | append_singleton us u ih =>
    rw [List.foldl_append, List.foldl_cons, List.foldl_nil, routeUpdates_snoc]
    cases u with
    | document d => simp only [routeUpdates, List.append_nil]; exact ih
    | task d => simp only [routeUpdates, List.append_nil]; exact ih
    | route r =>
      have e : (applyUpdate (us.foldl applyUpdate l) (Update.route r)).route =
          (us.foldl applyUpdate l).route.filter (fun i => i.id ≠ r.id) ++ [r] := rfl
      rw [e, ih]
      simp only [routeUpdates, keepLast_snoc, List.filter_append, List.filter_filter, List.append_assoc]
      congr 1
      apply List.filter_congr
      intro x _
      rw [Bool.eq_iff_iff]
      rw [Bool.and_eq_true, decide_eq_true_iff, decide_eq_true_iff]
      constructor
      · rintro ⟨h1, h2⟩
        apply decide_eq_true
        intro q hq
        rcases List.mem_append.mp hq with hq | hq
        · exact h2 q hq
        · rw [List.mem_singleton.mp hq]; exact fun e => h1 e.symm
      · intro h
        have h := of_decide_eq_true h
        exact ⟨fun e => h r (List.mem_append_right _ (List.mem_singleton.mpr rfl)) e.symm,
          fun q hq => h q (List.mem_append_left _ hq)⟩

theorem docLe_trans (a b c : Doc D) (h1 : docLe a b = true) (h2 : docLe b c = true) : docLe a c = true := by
  simp only [docLe, decide_eq_true_eq] at *
  exact String.le_trans h1 h2

theorem docLe_total (a b : Doc D) : (docLe a b || docLe b a) = true := by
  simp only [docLe, Bool.or_eq_true, decide_eq_true_eq]
  exact String.le_total _ _

theorem taskLe_iff (a b : Task B T) : taskLe a b = true ↔
    a.document < b.document ∨ (a.document = b.document ∧ a.id ≤ b.id) := by
  unfold taskLe
  by_cases h : a.document = b.document
  · rw [if_pos h, decide_eq_true_eq]
    constructor
    · intro h'; exact Or.inr ⟨h, h'⟩
    · rintro (h' | h')
      · rw [h] at h'; exact absurd h' (String.lt_irrefl _)
      · exact h'.2
  · rw [if_neg h, decide_eq_true_eq]
    constructor
    · intro h'
      left
      exact Std.lt_of_le_of_ne h' h
    · rintro (h' | h')
      · exact Std.le_of_lt h'
      · exact absurd h'.1 h

theorem taskLe_trans (a b c : Task B T) (h1 : taskLe a b = true) (h2 : taskLe b c = true) :
    taskLe a c = true := by
  rw [taskLe_iff] at *
  rcases h1 with h1 | ⟨h1, h1'⟩ <;> rcases h2 with h2 | ⟨h2, h2'⟩
  · exact Or.inl (String.lt_trans h1 h2)
  · exact Or.inl (h2 ▸ h1)
  · exact Or.inl (h1 ▸ h2)
  · exact Or.inr ⟨h1.trans h2, String.le_trans h1' h2'⟩

theorem taskLe_total (a b : Task B T) : (taskLe a b || taskLe b a) = true := by
  simp only [Bool.or_eq_true, taskLe_iff]
  by_cases h : a.document = b.document
  · rcases String.le_total a.id b.id with h' | h'
    · exact Or.inl (Or.inr ⟨h, h'⟩)
    · exact Or.inr (Or.inr ⟨h.symm, h'⟩)
  · rcases String.le_total a.document b.document with h' | h'
    · exact Or.inl (Or.inl (Std.lt_of_le_of_ne h' h))
    · exact Or.inr (Or.inl (Std.lt_of_le_of_ne h' (fun e => h e.symm)))

theorem sort_canonical (l : LockFile D B T) : Canonical (sort l) := by
  constructor
  · exact (List.pairwise_mergeSort docLe_trans docLe_total l.document).imp (by simp [docLe])
  · exact (List.pairwise_mergeSort taskLe_trans taskLe_total l.task).imp (fun h => (taskLe_iff _ _).mp h)

theorem sort_unique {l : LockFile D B T} (h : Unique l) : Unique (sort l) := by
  constructor
  · exact ((List.mergeSort_perm l.document docLe).map Doc.id).nodup_iff.mpr h.documents
  · exact ((List.mergeSort_perm l.task taskLe).map Task.id).nodup_iff.mpr h.tasks

theorem apply_unique {l : LockFile D B T} (h : Unique l) (us : List (Update D B T)) :
    Unique (applyUpdates l us) :=
  ⟨by rw [docs_apply]; exact foldl_upsert_nodup _ h.documents,
   by rw [tasks_apply]; exact foldl_upsert_nodup _ h.tasks⟩

theorem getDocument_sort {l : LockFile D B T} (h : Unique l) (id : String) :
    getDocument (sort l) id = getDocument l id :=
  find_congr (sort_unique h).documents h.documents
    (fun _ => (List.mergeSort_perm l.document docLe).mem_iff) id

theorem getTask_sort {l : LockFile D B T} (h : Unique l) (id : String) :
    getTask (sort l) id = getTask l id :=
  find_congr (sort_unique h).tasks h.tasks
    (fun _ => (List.mergeSort_perm l.task taskLe).mem_iff) id

/-- Canonical duplicate-free lock files with the same lookups have the same documents. -/
theorem docs_eq_of_lookup {l m : LockFile D B T} (hl : Unique l) (hm : Unique m) (cl : Canonical l)
    (cm : Canonical m) (h : ∀ id, getDocument l id = getDocument m id) : l.document = m.document := by
  have hmem := ext_of_find hl.documents hm.documents h
  refine List.Perm.eq_of_pairwise ?_ cl.documents cm.documents ?_
  · intro a b ha hb h1 h2
    exact Util.eq_of_nodup_map hm.documents ((hmem a).mp ha) hb (String.le_antisymm h1 h2)
  · exact (List.perm_ext_iff_of_nodup (nodup_of_map hl.documents) (nodup_of_map hm.documents)).mpr hmem

theorem tasks_eq_of_lookup {l m : LockFile D B T} (hl : Unique l) (hm : Unique m) (cl : Canonical l)
    (cm : Canonical m) (h : ∀ id, getTask l id = getTask m id) : l.task = m.task := by
  have hmem := ext_of_find hl.tasks hm.tasks h
  refine List.Perm.eq_of_pairwise ?_ cl.tasks cm.tasks ?_
  · intro a b ha hb h1 h2
    apply Util.eq_of_nodup_map hm.tasks ((hmem a).mp ha) hb
    rcases h1 with h1 | ⟨e, h1⟩
    · rcases h2 with h2 | ⟨e, h2⟩
      · exact absurd (String.lt_trans h1 h2) (String.lt_irrefl _)
      · rw [e] at h1; exact absurd h1 (String.lt_irrefl _)
    · rcases h2 with h2 | ⟨e', h2⟩
      · rw [e] at h2; exact absurd h2 (String.lt_irrefl _)
      · exact String.le_antisymm h1 h2
  · exact (List.perm_ext_iff_of_nodup (nodup_of_map hl.tasks) (nodup_of_map hm.tasks)).mpr hmem

/-! ## Text form -/

theorem splitOn_nosep {c : Char} {s : List Char} (h : c ∉ s) : splitOn c s = [s] := by
  induction s with
  | nil => rfl
  | cons x s ih =>
    have hx : x ≠ c := fun e => h (by simp [e])
    rw [splitOn, if_neg hx, ih (fun hm => h (List.mem_cons_of_mem _ hm))]

theorem splitOn_ne_nil (c : Char) (s : List Char) : splitOn c s ≠ [] := by
  cases s with
  | nil => simp [splitOn]
  | cons x s =>
    rw [splitOn]
    split
    · simp
    · split <;> simp

theorem splitOn_append {c : Char} {a : List Char} (h : c ∉ a) (b : List Char) :
    splitOn c (a ++ c :: b) = a :: splitOn c b := by
  induction a with
  | nil => simp [splitOn]
  | cons x a ih =>
    have hx : x ≠ c := fun e => h (by simp [e])
    rw [List.cons_append, splitOn, if_neg hx, ih (fun hm => h (List.mem_cons_of_mem _ hm))]

theorem splitOn_length (c : Char) (s : List Char) : (splitOn c s).length = s.count c + 1 := by
  induction s with
  | nil => rfl
  | cons x s ih =>
    rw [splitOn]
    by_cases hx : x = c
    · simp [hx, ih]
    · rw [if_neg hx, List.count_cons]
      have := splitOn_ne_nil c s
      cases hs : splitOn c s with
      | nil => exact absurd hs this
      | cons p ps => rw [hs] at ih; simp [hx] at ih ⊢; omega

theorem parse_display {r : ResPath} (h1 : ':' ∉ r.scheme) (h2 : ':' ∉ r.path) :
    parse (display r) = some r := by
  unfold parse display
  rw [splitOn_append h1, splitOn_nosep h2]

theorem parse_display_none {r : ResPath} (h : ':' ∈ r.scheme ∨ ':' ∈ r.path) :
    parse (display r) = none := by
  have hlen := splitOn_length ':' (display r)
  unfold parse
  have : 3 ≤ (splitOn ':' (display r)).length := by
    rw [hlen]
    simp only [display, List.count_append, List.count_cons_self]
    rcases h with h | h
    · have := List.count_pos_iff.mpr h; omega
    · have := List.count_pos_iff.mpr h; omega
  split
  · rename_i s p e; rw [e] at this; simp at this
  · rfl

theorem readDoc_docTable {d : Doc D} (h : PlainDoc d) : readDoc (docTable d) = some d := by
  have : (d.paths.map display).mapM parse = some d.paths := by
    have hp : ∀ p ∈ d.paths, ':' ∉ p.scheme ∧ ':' ∉ p.path := h
    generalize d.paths = ps at hp
    induction ps with
    | nil => rfl
    | cons p ps ih =>
      rw [List.map_cons, List.mapM_cons, parse_display (hp p (by simp)).1 (hp p (by simp)).2,
        ih fun q hq => hp q (List.mem_cons_of_mem _ hq)]
      rfl
  unfold readDoc docTable
  simp only [this, Option.map_some]

theorem readTask_emit {t : Task B T} (h : PlainTask t) : readTask (emitOutput (taskTable t)) = t := by
  obtain ⟨i, d, b, tr⟩ := t
  simp only [PlainTask] at h
  subst h
  rfl

theorem fromTable_toTable {l : LockFile D B T} (h : Plain l) : fromTable (toTable l) = some l := by
  have h1 : (l.document.map docTable).mapM readDoc = some l.document := by
    have hp := h.documents
    generalize l.document = ds at hp
    induction ds with
    | nil => rfl
    | cons p ps ih =>
      rw [List.map_cons, List.mapM_cons, readDoc_docTable (hp p (by simp)),
        ih fun q hq => hp q (List.mem_cons_of_mem _ hq)]
      rfl
  have h2 : (l.task.map fun t => emitOutput (taskTable t)).map readTask = l.task := by
    rw [List.map_map]
    conv => rhs; rw [← List.map_id l.task]
    exact List.map_congr_left fun t ht => readTask_emit (h.tasks t ht)
  unfold fromTable toTable
  simp only [h1, Option.map_some, h2]

theorem sort_plain {l : LockFile D B T} (h : Plain l) : Plain (sort l) :=
  ⟨fun d hd => h.documents d ((List.mergeSort_perm l.document docLe).mem_iff.mp hd),
   fun d hd => h.tasks d ((List.mergeSort_perm l.task taskLe).mem_iff.mp hd)⟩

theorem mem_docUpdates {us : List (Update D B T)} {d : Doc D} (h : d ∈ docUpdates us) : .document d ∈ us := by
  induction us with
  | nil => cases h
  | cons u us ih =>
    cases u with
    | document x =>
      rcases List.mem_cons.mp h with h | h
      · simp [h]
      · exact List.mem_cons_of_mem _ (ih h)
    | task x => exact List.mem_cons_of_mem _ (ih h)
    | route x => exact List.mem_cons_of_mem _ (ih h)

theorem mem_taskUpdates {us : List (Update D B T)} {d : Task B T} (h : d ∈ taskUpdates us) : .task d ∈ us := by
  induction us with
  | nil => cases h
  | cons u us ih =>
    cases u with
    | task x =>
      rcases List.mem_cons.mp h with h | h
      · simp [h]
      · exact List.mem_cons_of_mem _ (ih h)
    | document x => exact List.mem_cons_of_mem _ (ih h)
    | route x => exact List.mem_cons_of_mem _ (ih h)

theorem apply_plain {l : LockFile D B T} (h : Plain l) {us : List (Update D B T)}
    (hu : ∀ u ∈ us, PlainUpdate u) : Plain (applyUpdates l us) := by
  constructor
  · intro d hd
    rw [docs_apply] at hd
    rcases mem_foldl_upsert hd with hd | hd
    · exact hu _ (mem_docUpdates hd)
    · exact h.documents d hd
  · intro d hd
    rw [tasks_apply] at hd
    rcases mem_foldl_upsert hd with hd | hd
    · exact hu _ (mem_taskUpdates hd)
    · exact h.tasks d hd

theorem compat_toTable {l : LockFile D B T} (h : Plain l) :
    compat ⟨some lockVersion, some (toTable l)⟩ = .current l := by
  unfold compat
  rw [if_pos rfl]
  simp only [Option.bind_some, fromTable_toTable h]

theorem load_print {c : Codec D B T} (hc : c.Lawful) {cmp : String → Option Ordering}
    (hv : cmp lockVersion = some .eq) {l : LockFile D B T} (h : Plain l) :
    loadState c cmp (c.print (toTable l)) = some l := by
  unfold loadState
  rw [if_neg (by simp [hc.utf8]), if_neg (by simp [hc.notBlank]), hc.parse]
  show (do
    let v ← (compat ⟨some lockVersion, some (toTable l)⟩).version
    _) = _
  rw [compat_toTable h]
  simp only [Compat.version, bind, Option.bind, hv, Compat.migrate]

theorem read_print {c : Codec D B T} (hc : c.Lawful) {l : LockFile D B T} (h : Plain l) :
    read c (c.print (toTable l)) = some l := by
  unfold read
  rw [if_neg (by simp [hc.utf8]), hc.parse]
  simp only [Option.bind_some, compat_toTable h, Compat.migrate]

theorem commit_eq {c : Codec D B T} {cmp : String → Option Ordering} {old : Bytes} {l : LockFile D B T}
    (hl : loadState c cmp old = some l) (us : List (Update D B T)) :
    commit c cmp old us = c.print (toTable (sort (applyUpdates l us))) := by
  unfold commit fileAfter update
  simp only [hl, bind, Option.bind]
  split
  · rename_i new h
    split at h
    · cases h
    · injection h with h; injection h with h; exact h.symm
  · rename_i h
    split at h
    · assumption
    · exact absurd rfl (h _)

end Tinymist.Lock
