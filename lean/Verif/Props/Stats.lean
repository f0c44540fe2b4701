import Verif.Lemmas.Stats

/-!
# C155 and C156: what the statistics of a server say
-/

namespace Tinymist.Stats

theorem startOf_proper {h : List Event} (hp : Proper h) {g : Nat} {k : Key} {t : Nat} : startOf h g = some (k, t) ↔ Event.start g k t ∈ h := by
  refine ⟨startOf_mem, fun hm => ?_⟩
  obtain ⟨before, after, rfl⟩ := List.append_of_mem hm
  have := hp before _ after rfl
  simp only at this
  rw [startOf_append, show startOf before g = none from startOf_none.2 fun k t hm => this _ hm rfl]
  simp [startOf]

/-- **C155**: what the times of a row are about: the finished queries of the file. -/
theorem durations_are {h : List Event} (hp : Proper h) (k : Key) (d : Nat) : d ∈ durations h k ↔ ∃ g, Took h g k d := by
  unfold durations Took
  rw [List.mem_filterMap]
  constructor
  · rintro ⟨e, he, hd⟩
    cases e with
    | finish g t =>
      simp only [Option.bind_eq_some_iff] at hd
      obtain ⟨⟨k', t'⟩, hs, hd⟩ := hd
      by_cases hk : k' = k
      · subst hk
        simp at hd
        exact ⟨g, t', t, startOf_mem hs, he, hd.symm⟩
      · simp [hk] at hd
    | _ => simp at hd
  · rintro ⟨g, t, t', hs, hf, rfl⟩
    exact ⟨_, hf, by simp [(startOf_proper hp).2 hs]⟩

/-- **C155**: each row tells how many queries of a file are finished, what they took together, at least and at most, what they waited and how
many missed, whatever was done by other queries meanwhile. There is a row for each file and query that was begun, and no other.
Missing: files whose names are confused, and queries that are not finished. -/
theorem row_tells_partial {h : List Event} (hp : Proper h) (ht : ∀ e ∈ h, e.time ≤ (2 ^ 64 - 1) * 10 ^ 9) :
    (((run h).table.map (·.1)).Nodup) ∧ (∀ k, k ∈ (run h).table.map (·.1) ↔ ∃ g t, Event.start g k t ∈ h) ∧
      ∀ k b, (k, b) ∈ (run h).table → RowOf h k b := by
  obtain ⟨_, hn, htab⟩ := inv_run hp
  have hl : ∀ k b, (k, b) ∈ (run h).table → (run h).table.lookup k = some b := by
    intro k b hm
    generalize (run h).table = l at hn hm
    clear htab
    induction l with
    | nil => cases hm
    | cons x xs ih =>
      obtain ⟨k', b'⟩ := x
      rw [List.map_cons, List.nodup_cons] at hn
      rw [List.lookup]
      rcases List.mem_cons.1 hm with he | hm'
      · cases he; simp
      · have : k ≠ k' := by
          rintro rfl
          exact hn.1 (List.mem_map_of_mem (f := (·.1)) hm')
        have : (k == k') = false := by simpa using this
        simp only [this]
        exact ih hn.2 hm'
  refine ⟨hn, ?_, ?_⟩
  · intro k
    rw [← used_iff]
    constructor
    · intro hk
      obtain ⟨⟨k', b⟩, hm, rfl⟩ := List.mem_map.1 hk
      have := hl _ _ hm
      rw [htab] at this
      cases hu : used h k' with
      | true => rfl
      | false => simp [hu] at this
    · intro hu
      have := htab k
      rw [hu, if_pos rfl] at this
      cases hx : (run h).table.lookup k with
      | none => rw [hx] at this; cases this
      | some b =>
        by_cases hm : ∃ b, (k, b) ∈ (run h).table
        · obtain ⟨b, hm⟩ := hm
          exact List.mem_map_of_mem (f := (·.1)) hm
        · rw [lookup_none.2 fun b hb => hm ⟨b, hb⟩] at hx
          cases hx
  · intro k b hm
    have := hl _ _ hm
    rw [htab] at this
    cases hu : used h k with
    | false => simp [hu] at this
    | true =>
      rw [hu, if_pos rfl] at this
      cases this
      obtain ⟨⟨_, h1⟩, h2⟩ := foldl_min_spec (durations h k) never
      obtain ⟨⟨_, h3⟩, h4⟩ := foldl_max_spec (durations h k) 0
      refine ⟨rfl, rfl, rfl, rfl, h1, ?_, h3, ?_⟩
      · intro hne
        rcases h2 with h2 | h2
        · obtain ⟨d, ds, hd⟩ := List.exists_cons_of_ne_nil hne
          have hd' : d ∈ durations h k := by rw [hd]; exact List.mem_cons_self
          obtain ⟨g, t, t', _, hf, hdt⟩ := (durations_are hp k d).1 hd'
          have := ht _ hf
          simp only [Event.time] at this
          have hle := h1 d hd'
          have hnv : never = (2 ^ 64 - 1) * 10 ^ 9 := by decide
          have : d = never := by omega
          show (durations h k).foldl Nat.min never ∈ _
          rw [h2, ← this]
          exact hd'
        · exact h2
      · intro hne
        rcases h4 with h4 | h4
        · obtain ⟨d, ds, hd⟩ := List.exists_cons_of_ne_nil hne
          have hd' : d ∈ durations h k := by rw [hd]; exact List.mem_cons_self
          have hle := h3 d hd'
          have : d = 0 := by omega
          show (durations h k).foldl Nat.max 0 ∈ _
          rw [h4, ← this]
          exact hd'
        · exact h4

/-- **C155**: the order in which queries of all the threads are done makes no difference for a row. -/
theorem any_order {h h' : List Event} (hp : Proper h) (hp' : Proper h') (hperm : h.Perm h')
    (hsnap : ∀ g t t', Event.snap g t ∈ h → Event.snap g t' ∈ h → t = t') (k : Key) (b b' : Bucket)
    (hb : (run h).table.lookup k = some b) (hb' : (run h').table.lookup k = some b') : b = b' := by
  have hs : ∀ g, startOf h g = startOf h' g := by
    intro g
    cases hx : startOf h' g with
    | none => exact startOf_none.2 fun k t hm => startOf_none.1 hx k t (hperm.mem_iff.1 hm)
    | some s => exact (startOf_proper hp).2 (hperm.mem_iff.2 (startOf_mem hx))
  have hsn : ∀ g, snapOf h g = snapOf h' g := by
    intro g
    cases hx : snapOf h' g with
    | none => exact snapOf_none.2 fun t hm => snapOf_none.1 hx t (hperm.mem_iff.1 hm)
    | some t =>
      cases hy : snapOf h g with
      | none => exact absurd (hperm.mem_iff.2 (snapOf_mem hx)) (snapOf_none.1 hy t)
      | some t' => rw [hsnap g t' t (snapOf_mem hy) (hperm.mem_iff.2 (snapOf_mem hx))]
  have hd : (durations h k).Perm (durations h' k) := by
    unfold durations
    rw [show startOf h = startOf h' from funext hs]
    exact hperm.filterMap _
  have hw : (waits h k).Perm (waits h' k) := by
    unfold waits
    rw [show startOf h = startOf h' from funext hs, show snapOf h = snapOf h' from funext hsn]
    exact hperm.filterMap _
  have hm : (misses h k).Perm (misses h' k) := by
    unfold misses
    rw [show startOf h = startOf h' from funext hs]
    exact hperm.filterMap _
  rw [(inv_run hp).table] at hb
  rw [(inv_run hp').table] at hb'
  have e : bucketOf h k = bucketOf h' k := by
    unfold bucketOf
    rw [hd.length_eq, hm.length_eq, hd.sum_nat, hw.sum_nat]
    congr 1
    · exact hd.foldl_eq' (fun x _ y _ z => by show Nat.min (Nat.min z x) y = Nat.min (Nat.min z y) x; exact Nat.min_right_comm _ _ _) _
    · exact hd.foldl_eq' (fun x _ y _ z => by show Nat.max (Nat.max z x) y = Nat.max (Nat.max z y) x; exact Nat.max_right_comm _ _ _) _
  split at hb
  · split at hb'
    · cases hb; cases hb'; exact e
    · cases hb'
  · cases hb

/-- **C155**: the page has the rows, the ones with the longest queries first, in whatever order the table gives them. -/
theorem report_sorted (h : List Event) (table : List (Key × Bucket)) (ho : table.Perm (run h).table) :
    (report table).Perm (run h).table ∧ (report table).Pairwise fun x y => y.2.max ≤ x.2.max := by
  unfold report
  refine ⟨(List.mergeSort_perm _ _).trans ho, ?_⟩
  have := List.pairwise_mergeSort (le := fun (x y : Key × Bucket) => decide (y.2.max ≤ x.2.max))
    (by intro a b c h1 h2; simp at h1 h2 ⊢; omega) (by intro a b; simp; omega) table
  exact this.imp (by intro a b h; simpa using h)

/-- **C155**, negated in part: a query that is not finished shows a least time of more than 500 billion years. -/
theorem unfinished_row (g t : Nat) (k : Key) : (run [.start g k t]).table = [(k, ⟨0, 0, 0, 0, (2 ^ 64 - 1) * 10 ^ 9, 0⟩)] := by
  simp [run, State.step, ensure, Bucket.new, never]

theorem plain_debug {text : List Char} (h : ∀ c ∈ text, c ≠ '"' ∧ c ≠ '\\' ∧ c ≠ '\n' ∧ c ≠ '\t' ∧ c ≠ '\r') :
    debug text = '"' :: text ++ ['"'] := by
  unfold debug
  congr 2
  induction text with
  | nil => rfl
  | cons c cs ih =>
    obtain ⟨h1, h2, h3, h4, h5⟩ := h c List.mem_cons_self
    rw [List.flatMap_cons, ih fun x hx => h x (List.mem_cons_of_mem _ hx)]
    simp [h1, h2, h3, h4, h5]

/-- **C155**: the name of a row is the file in quotes, a colon and the query, for plain files; what the page would read as tags stays, so a
file `<b>.typ` makes the page bold. -/
theorem name_verbatim (k : Key) (h : ∀ c ∈ k.file.toList, c ≠ '"' ∧ c ≠ '\\' ∧ c ≠ '\n' ∧ c ≠ '\t' ∧ c ≠ '\r')
    (hq : '\\' ∉ k.query.toList) :
    nameCell k = "<td class=\"query-column\">\"".toList ++ k.file.toList ++ "\":".toList ++ k.query.toList ++ "</td>".toList := by
  unfold nameCell rowName
  rw [plain_debug h]
  have hm : (('"' :: k.file.toList ++ ['"']) ++ ':' :: k.query.toList).map (fun c => if c = '\\' then '/' else c) =
      ('"' :: k.file.toList ++ ['"']) ++ ':' :: k.query.toList := by
    refine (List.map_congr_left (g := id) ?_).trans (List.map_id _)
    intro c hc
    simp only [List.cons_append, List.mem_cons, List.mem_append, List.not_mem_nil, or_false, List.append_assoc] at hc
    have : c ≠ '\\' := by
      rcases hc with rfl | hc | hc | hc | hc | hc
      · decide
      · exact (h c hc).2.1
      · subst hc; decide
      · exact hc.elim
      · subst hc; decide
      · rintro rfl; exact hq hc
    rw [if_neg this]; rfl
  rw [hm]
  simp

/-- **C155**, negated in part: the rows of two files can have one name. -/
theorem names_confused (q : String) : (⟨"a\nb", q⟩ : Key) ≠ ⟨"a/nb", q⟩ ∧ nameCell ⟨"a\nb", q⟩ = nameCell ⟨"a/nb", q⟩ := by
  constructor
  · intro h
    injection h with h1
    exact absurd h1 (by decide)
  · unfold nameCell rowName
    rw [List.map_append, List.map_append,
      show (debug "a\nb".toList).map (fun c => if c = '\\' then '/' else c) = (debug "a/nb".toList).map (fun c => if c = '\\' then '/' else c) by
        decide +kernel]

/-! ## Allocations -/

theorem allocRun_eq (h : List AllocEvent) : allocRun h = ⟨h.count .increment, h.count .decrement⟩ := by
  have key : ∀ (h : List AllocEvent) (a : Alloc), h.foldl Alloc.step a = ⟨a.allocated + h.count .increment, a.dropped + h.count .decrement⟩ := by
    intro h
    induction h with
    | nil => intro a; rfl
    | cons e h ih =>
      intro a
      rw [List.foldl_cons, ih]
      cases e <;> simp [Alloc.step] <;> omega
  rw [allocRun, key]
  simp

/-- **C156**: a row tells how many values were made and dropped, how many are alive and what they take, if nothing happens meanwhile. -/
theorem alloc_row (name : String) (size : Nat) (h : List AllocEvent) :
    allocRow name size h [] = ⟨name, size * alive h, h.count .increment, h.count .decrement, alive h⟩ := by
  simp [allocRow, allocRun_eq, alive]

/-- **C156**: if other threads make and drop values meanwhile, the row tells of no more values than were alive, and misses no more of these
than are dropped meanwhile; those dropped are counted when the second number is read. -/
theorem alloc_bounds (name : String) (size : Nat) (h between : List AllocEvent) :
    (allocRow name size h between).alive ≤ alive h ∧
      alive h ≤ (allocRow name size h between).alive + between.count .decrement ∧
      (allocRow name size h between).size = size * (allocRow name size h between).alive ∧
      (allocRow name size h between).dropped = (h ++ between).count .decrement := by
  simp only [allocRow, allocRun_eq, alive, List.count_append]
  exact ⟨by omega, by omega, trivial, trivial⟩

/-- **C156**: the page has each row, the ones with the most values first. -/
theorem alloc_sorted (rows : List AllocRow) :
    (allocReport rows).Perm rows ∧ (allocReport rows).Pairwise fun x y => y.alive ≤ x.alive := by
  unfold allocReport
  refine ⟨List.mergeSort_perm _ _, ?_⟩
  have := List.pairwise_mergeSort (le := fun (x y : AllocRow) => decide (y.alive ≤ x.alive))
    (by intro a b c h1 h2; simp at h1 h2 ⊢; omega) (by intro a b; simp; omega) rows
  exact this.imp (by intro a b h; simpa using h)

/-- **C156**, negated in part: the rows that take the most may come last. -/
theorem largest_last : (allocReport [allocRow "small" 1 [.increment, .increment] [], allocRow "large" 1000 [.increment] []]).map (·.name) =
    ["small", "large"] := by
  unfold allocReport
  rw [List.mergeSort_of_pairwise]
  · rfl
  · simp [allocRow, allocRun, Alloc.step]

theorem unitFrom_spec (size left unit : Nat) :
    unit ≤ unitFrom size left unit ∧ unitFrom size left unit ≤ unit + left ∧
      (∀ v, unit ≤ v → v < unitFrom size left unit → 768 * 1024 ^ v ≤ size) ∧
      (unitFrom size left unit < unit + left → size < 768 * 1024 ^ unitFrom size left unit) := by
  induction left generalizing unit with
  | zero => exact ⟨Nat.le_refl _, Nat.le_refl _, fun v h1 h2 => by simp only [unitFrom] at h2; omega, fun h => by simp only [unitFrom] at h; omega⟩
  | succ left ih =>
    rw [unitFrom]
    by_cases h : size ≥ 768 * 1024 ^ unit
    · rw [if_pos h]
      obtain ⟨h1, h2, h3, h4⟩ := ih (unit + 1)
      refine ⟨by omega, by omega, ?_, ?_⟩
      · intro v hv hv'
        rcases Nat.eq_or_lt_of_le hv with rfl | hv
        · exact h
        · exact h3 v hv hv'
      · intro hl
        exact h4 (by omega)
    · rw [if_neg h]
      exact ⟨Nat.le_refl _, by omega, fun v h1 h2 => by omega, fun _ => by omega⟩

/-- **C156**: a size is shown in the least unit in which it is less than 768, up to terabytes.
Missing: numbers beyond the last unit, for which it panics. -/
theorem human_unit_partial (size unit : Nat) :
    humanUnit size = some unit ↔ unit ≤ 4 ∧ size < 768 * 1024 ^ unit ∧ ∀ v, v < unit → 768 * 1024 ^ v ≤ size := by
  obtain ⟨_, h2, h3, h4⟩ := unitFrom_spec size 5 0
  unfold humanUnit
  generalize hu : unitFrom size 5 0 = u at h2 h3 h4
  dsimp only
  constructor
  · intro h
    by_cases hl : u < 5
    · rw [if_pos hl] at h
      cases h
      exact ⟨by omega, h4 (by omega), fun v hv => h3 v (Nat.zero_le _) hv⟩
    · rw [if_neg hl] at h; cases h
  · rintro ⟨h5, h6, h7⟩
    have e : u = unit := by
      rcases Nat.lt_trichotomy u unit with hl | he | hl
      · have := h7 u hl
        have := h4 (by omega)
        omega
      · exact he
      · have := h3 unit (Nat.zero_le _) hl
        omega
    rw [e, if_pos (by omega)]

/-- **C156**, negated in part: there is no size from 768 terabytes on, and the server panics. -/
theorem human_panics (size : Nat) : humanUnit size = none ↔ 768 * 1024 ^ 4 ≤ size := by
  obtain ⟨_, h2, h3, h4⟩ := unitFrom_spec size 5 0
  unfold humanUnit
  generalize hu : unitFrom size 5 0 = u at h2 h3 h4
  dsimp only
  constructor
  · intro h
    by_cases hl : u < 5
    · rw [if_pos hl] at h; cases h
    · exact h3 4 (by omega) (by omega)
  · intro h
    rw [if_neg]
    intro hl
    have h5 := h4 (by omega)
    have : 1024 ^ u ≤ 1024 ^ 4 := Nat.pow_le_pow_right (by omega) (by omega)
    omega

/-! ## The claims are about something -/

/-- Two hovers in one file at once, of which one had to wait. -/
def busy : List Event :=
  [.start 1 ⟨"/a.typ", "hover"⟩ 100, .start 2 ⟨"/a.typ", "hover"⟩ 110, .snap 1 130, .miss 2, .finish 2 115, .finish 1 190]

theorem busy_proper : Proper busy := by
  intro before e after h
  have hs : ∃ n, n < 6 ∧ before = busy.take n ∧ busy[n]? = some e := by
    refine ⟨before.length, ?_, ?_, ?_⟩
    · have := congrArg List.length h
      simp [busy] at this
      omega
    · rw [h]; simp
    · rw [h]; simp
  obtain ⟨n, hn, rfl, he⟩ := hs
  have : n = 0 ∨ n = 1 ∨ n = 2 ∨ n = 3 ∨ n = 4 ∨ n = 5 := by omega
  rcases this with rfl | rfl | rfl | rfl | rfl | rfl <;> simp [busy] at he <;> subst he <;> simp [busy, Event.who]

example : (run busy).table = [(⟨"/a.typ", "hover"⟩, ⟨2, 1, 95, 30, 5, 90⟩)] := by decide +kernel

end Tinymist.Stats
