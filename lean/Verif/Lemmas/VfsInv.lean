import Verif.Lemmas.Vfs
/-! Invariants of worlds: a single live file system, and a live one with snapshots. -/
namespace Tinymist.Vfs
variable {Path Fid V : Type} [DecidableEq Path] [DecidableEq Fid]
variable {resolve : Fid → Except V Path} {P : Path → V → Prop}

theorem edit_inj {r : Revising Path Fid V} (hb : ∀ f e, r.managed f = some e → e.cell < r.nextCell)
    (hi : ∀ f f' e e', r.managed f = some e → r.managed f' = some e' → e.cell = e'.cell → f = f')
    (ed : Edit Path Fid V) :
    (∀ f e, (ed.apply r).managed f = some e → e.cell < (ed.apply r).nextCell) ∧
    ∀ f f' e e', (ed.apply r).managed f = some e → (ed.apply r).managed f' = some e' →
      e.cell = e'.cell → f = f' := by
  by_cases hne : ed = .resetCache
  · subst hne
    exact ⟨fun _ _ h => (by cases h), fun _ _ _ _ h => (by cases h)⟩
  · obtain ⟨-, t⟩ := edit_touched r ed hne
    have tf := t.fresh
    have ts := t.same
    have ti := t.inj
    have tn := t.next
    simp only at tf ts ti tn
    constructor
    · intro f e he
      by_cases hT : ed.touches r f
      · obtain ⟨c, h1, h2, h3⟩ := tf f hT
        rw [h1] at he; injection he with he; subst he; exact h3
      · rw [ts f hT] at he
        exact Nat.lt_of_lt_of_le (hb f e he) tn
    · intro f f' e e' he he' hc
      by_cases a : ed.touches r f <;> by_cases b : ed.touches r f'
      · refine ti f f' e e' he he' hc ?_ a b
        obtain ⟨c, h1, h2, h3⟩ := tf f a
        rw [h1] at he; injection he with he; subst he; exact h2
      · obtain ⟨c, h1, h2, h3⟩ := tf f a
        rw [h1] at he; injection he with he; subst he
        rw [ts f' b] at he'
        have := hb f' e' he'
        simp only at hc; omega
      · obtain ⟨c, h1, h2, h3⟩ := tf f' b
        rw [h1] at he'; injection he' with he'; subst he'
        rw [ts f a] at he
        have := hb f e he
        simp only at hc; omega
      · rw [ts f a] at he
        rw [ts f' b] at he'
        exact hi f f' e e' he he' hc

theorem edits_inj {r : Revising Path Fid V} (hb : ∀ f e, r.managed f = some e → e.cell < r.nextCell)
    (hi : ∀ f f' e e', r.managed f = some e → r.managed f' = some e' → e.cell = e'.cell → f = f')
    (es : List (Edit Path Fid V)) :
    (∀ f e, (es.foldl Edit.apply r).managed f = some e → e.cell < (es.foldl Edit.apply r).nextCell) ∧
    ∀ f f' e e', (es.foldl Edit.apply r).managed f = some e → (es.foldl Edit.apply r).managed f' = some e' →
      e.cell = e'.cell → f = f' := by
  induction es generalizing r with
  | nil => exact ⟨hb, hi⟩
  | cons e es ih =>
    obtain ⟨h1, h2⟩ := edit_inj hb hi e
    exact ih h1 h2

/-! ### A single live file system -/

structure LiveInv (resolve : Fid → Except V Path) (P : Path → V → Prop) (w : World Path Fid V)
    (H : Handle Path Fid V) : Prop where
  handle : w.handles 0 = some H
  cell_lt : ∀ f e, (w.stores H.store).managed f = some e → e.cell < w.nextCell
  inj : ∀ f f' e e', (w.stores H.store).managed f = some e → (w.stores H.store).managed f' = some e' →
    e.cell = e'.cell → f = f'
  bytes_lt : ∀ c x, w.bytes c = some x → c < w.nextCell
  pm : (w.stores H.store).paths.Ok resolve
  good : ∀ f e x, (w.stores H.store).managed f = some e → w.bytes e.cell = some x →
    (origin resolve H.am f).Gives P x.val ∧
    ∀ p, resolve f = .ok p → get H.am.byId f ≠ none ∨ f ∈ (w.stores H.store).paths.paths p
  disk : ∀ p, P p (w.disk p)

theorem live_init (disk : Path → V) (h : ∀ p, P p (disk p)) :
    LiveInv resolve P (init disk : World Path Fid V) ⟨0, 2, ⟨[], [], []⟩⟩ :=
  ⟨rfl, fun _ _ h => (by cases h), fun _ _ _ _ h => (by cases h), fun _ _ h => (by cases h),
    PathMap.ok_empty _, fun _ _ _ h => (by cases h), h⟩

theorem live_revise {w : World Path Fid V} {H : Handle Path Fid V} (h : LiveInv resolve P w H)
    (es : List (Edit Path Fid V)) :
    ∃ H', LiveInv resolve P (revise w 0 es) H' ∧ H'.am = (revising w H es).am := by
  have hent := @edits_entry Path Fid V _ _ resolve (reviseStart w H) es
  have hinj := edits_inj (r := reviseStart w H) h.cell_lt h.inj es
  have hpm := edits_pathsOk (r := reviseStart w H) h.pm es
  have hnext := edits_next (reviseStart w H) es
  have hgoal := edits_goal (reviseStart w H) es
  change ∀ {f x}, (revising w H es).managed f = some x → _ at hent
  unfold revise
  rw [h.handle]
  simp only
  change (∀ f e, (revising w H es).managed f = some e → _) ∧ (∀ f f' e e', (revising w H es).managed f = _ → _) at hinj
  change (revising w H es).paths.Ok resolve at hpm
  change w.nextCell ≤ (revising w H es).nextCell at hnext
  have hgood : ∀ f e x, (revising w H es).managed f = some e → w.bytes e.cell = some x →
      (origin resolve (revising w H es).am f).Gives P x.val ∧
      ∀ p, resolve f = .ok p → get (revising w H es).am.byId f ≠ none ∨ f ∈ (revising w H es).paths.paths p := by
    intro f e x he hx
    rcases hent he with ⟨h1, -, -⟩ | ⟨h1, h2⟩
    · have := h.bytes_lt _ _ hx
      have h1 : w.nextCell ≤ e.cell := h1
      omega
    · obtain ⟨g1, g2⟩ := h.good f e x h1 hx
      obtain ⟨h3, h4⟩ := h2 g2
      refine ⟨?_, h4⟩
      have h3 : origin resolve (revising w H es).am f = origin resolve H.am f := h3
      rw [h3]
      exact g1
  by_cases hc : (revising w H es).changed = true
  · rw [if_pos hc]
    refine ⟨⟨w.nextStore, (revising w H es).goal, (revising w H es).am⟩, ⟨?_, ?_, ?_, ?_, ?_, ?_, ?_⟩, rfl⟩
    · simp [set]
    · simp only [set_eq]; exact hinj.1
    · simp only [set_eq]; exact hinj.2
    · exact fun c x hx => Nat.lt_of_lt_of_le (h.bytes_lt c x hx) hnext
    · simp only [set_eq]; exact hpm
    · simp only [set_eq]; exact hgood
    · exact h.disk
  · rw [if_neg hc]
    have hc : (revising w H es).changed = false := by simpa using hc
    -- nothing was touched: the maps are as before
    have key : ∀ (es : List (Edit Path Fid V)) (r : Revising Path Fid V),
        (es.foldl Edit.apply r).changed = false →
        (es.foldl Edit.apply r).managed = r.managed ∧ (es.foldl Edit.apply r).paths = r.paths := by
      intro es
      induction es with
      | nil => exact fun r _ => ⟨rfl, rfl⟩
      | cons e es ih =>
        intro r hr
        obtain ⟨i1, i2⟩ := ih _ hr
        have mono : ∀ (es : List (Edit Path Fid V)) (r : Revising Path Fid V), r.changed = true →
            (es.foldl Edit.apply r).changed = true := by
          intro es
          induction es with
          | nil => exact fun _ h => h
          | cons e es ih =>
            intro r hr
            apply ih
            by_cases hne : e = .resetCache
            · subst hne; rfl
            · exact (edit_touched r e hne).2.changed hr
        have hr1 : (e.apply r).changed = false := by
          cases hx : (e.apply r).changed with
          | false => rfl
          | true =>
            have := mono es _ hx
            rw [List.foldl_cons] at hr
            rw [hr] at this; cases this
        have hne : e ≠ .resetCache := by rintro rfl; cases hr1
        have t := (edit_touched r e hne).2
        rw [List.foldl_cons, i1, i2]
        refine ⟨funext fun f => t.same f (t.unchanged hr1 f), t.paths⟩
    obtain ⟨k1, k2⟩ := key es _ hc
    change (revising w H es).managed = (w.stores H.store).managed at k1
    change (revising w H es).paths = (w.stores H.store).paths at k2
    rw [k1, k2] at hgood
    exact ⟨{ H with am := (revising w H es).am },
      ⟨by simp [set], h.cell_lt, h.inj, h.bytes_lt, h.pm, hgood, h.disk⟩, rfl⟩

theorem slot_managed (w : World Path Fid V) (s : Nat) (f : Fid) :
    ∃ e, ((slot w s f).stores s).managed f = some e ∧
      ((w.stores s).managed f = some e ∧ slot w s f = w ∨
       (w.stores s).managed f = none ∧ e = ⟨0, w.nextCell⟩) := by
  unfold slot
  cases h : (w.stores s).managed f with
  | some e => exact ⟨e, by simp [h], Or.inl ⟨rfl, rfl⟩⟩
  | none => exact ⟨⟨0, w.nextCell⟩, by simp [set], Or.inr ⟨rfl, rfl⟩⟩

theorem live_slot {w : World Path Fid V} {H : Handle Path Fid V} (h : LiveInv resolve P w H) (f : Fid) :
    LiveInv resolve P (slot w H.store f) H := by
  unfold slot
  cases hm : (w.stores H.store).managed f with
  | some e => exact h
  | none =>
    refine ⟨h.handle, ?_, ?_, ?_, ?_, ?_, h.disk⟩
    · intro g e he
      simp only [set_eq] at he
      by_cases hg : g = f
      · subst hg; rw [set_eq] at he; injection he with he; subst he; exact Nat.lt_succ_self _
      · rw [set_ne _ _ hg] at he; exact Nat.lt_succ_of_lt (h.cell_lt g e he)
    · intro g g' e e' he he' hc
      simp only [set_eq] at he he'
      by_cases hg : g = f <;> by_cases hg' : g' = f
      · rw [hg, hg']
      · subst hg; rw [set_eq] at he; injection he with he; subst he
        rw [set_ne _ _ hg'] at he'
        have := h.cell_lt g' e' he'
        simp only at hc; omega
      · subst hg'; rw [set_eq] at he'; injection he' with he'; subst he'
        rw [set_ne _ _ hg] at he
        have := h.cell_lt g e he
        simp only at hc; omega
      · rw [set_ne _ _ hg] at he; rw [set_ne _ _ hg'] at he'
        exact h.inj g g' e e' he he' hc
    · exact fun c x hx => Nat.lt_succ_of_lt (h.bytes_lt c x hx)
    · simp only [set_eq]; exact h.pm
    · intro g e x he hx
      simp only [set_eq] at he ⊢
      by_cases hg : g = f
      · subst hg; rw [set_eq] at he; injection he with he; subst he
        have := h.bytes_lt _ _ hx
        simp only at this; omega
      · rw [set_ne _ _ hg] at he; exact h.good g e x he hx

/-- Filling a cell changes no entry. -/
theorem fill_managed (w : World Path Fid V) (H : Handle Path Fid V) (f : Fid) (c s : Nat) :
    ((fill resolve w H f c).stores s).managed = (w.stores s).managed := by
  unfold fill
  split
  · rfl
  · simp only [filed]
    cases (H.am.content resolve w.disk f).1 with
    | none => rfl
    | some p =>
      simp only
      by_cases h : s = H.store
      · subst h; rw [set_eq]
      · rw [set_ne _ _ h]

theorem fill_rest (w : World Path Fid V) (H : Handle Path Fid V) (f : Fid) (c : Nat) :
    (fill resolve w H f c).handles = w.handles ∧ (fill resolve w H f c).nextCell = w.nextCell ∧
    (fill resolve w H f c).disk = w.disk ∧ (fill resolve w H f c).pending = w.pending ∧
    (fill resolve w H f c).nextStore = w.nextStore ∧ (fill resolve w H f c).nextHandle = w.nextHandle := by
  unfold fill
  split <;> exact ⟨rfl, rfl, rfl, rfl, rfl, rfl⟩

/-- The paths after filling: still consistent, nothing lost, and `f` is filed if it was read by path. -/
theorem fill_paths (w : World Path Fid V) (H : Handle Path Fid V) (f : Fid) (c s : Nat)
    (h : (w.stores s).paths.Ok resolve) :
    ((fill resolve w H f c).stores s).paths.Ok resolve ∧
    (∀ g q, g ∈ (w.stores s).paths.paths q → g ∈ ((fill resolve w H f c).stores s).paths.paths q) ∧
    (w.bytes c = none → s = H.store → get H.am.byId f = none → ∀ p, resolve f = .ok p →
      f ∈ ((fill resolve w H f c).stores s).paths.paths p) := by
  unfold fill
  split
  · rename_i x hx
    exact ⟨h, fun _ _ h => h, fun e => by rw [hx] at e; cases e⟩
  · simp only [filed]
    cases hp : (H.am.content resolve w.disk f).1 with
    | some p =>
      simp only
      have hr := content_path _ _ _ hp
      by_cases hs : s = H.store
      · subst hs
        rw [set_eq]
        obtain ⟨i1, i2, i3⟩ := PathMap.insert_ok h hr H.revision
        refine ⟨i1, i3, fun _ _ _ q hq => ?_⟩
        have : q = p := by rw [hr] at hq; injection hq with hq; exact hq.symm
        subst this
        exact i2
      · rw [set_ne _ _ hs]
        exact ⟨h, fun _ _ h => h, fun _ e => absurd e hs⟩
    | none =>
      refine ⟨h, fun _ _ h => h, fun _ _ hid q hq => ?_⟩
      rw [content_path' _ _ _ hq hid] at hp
      cases hp

theorem fill_bytes (w : World Path Fid V) (H : Handle Path Fid V) (f : Fid) (c : Nat) :
    (∀ c', c' ≠ c → (fill resolve w H f c).bytes c' = w.bytes c') ∧
    (∀ x, w.bytes c = some x → (fill resolve w H f c).bytes c = some x) ∧
    (w.bytes c = none → (fill resolve w H f c).bytes c =
      some ⟨(H.am.content resolve w.disk f).1, H.revision, (H.am.content resolve w.disk f).2⟩) := by
  unfold fill
  cases h : w.bytes c with
  | some x => exact ⟨fun _ _ => rfl, fun _ e => by rw [← e]; exact h, fun e => by cases e⟩
  | none =>
    refine ⟨fun c' hc => set_ne _ _ hc, ?_, fun _ => set_eq _ _ _⟩
    intro x e
    cases e

theorem live_fill {w : World Path Fid V} {H : Handle Path Fid V} (h : LiveInv resolve P w H) {f : Fid} {e : Entry}
    (he : (w.stores H.store).managed f = some e) : LiveInv resolve P (fill resolve w H f e.cell) H := by
  obtain ⟨r1, r2, r3, r4, r5, r6⟩ := fill_rest (resolve := resolve) w H f e.cell
  obtain ⟨p1, p2, p3⟩ := fill_paths (resolve := resolve) w H f e.cell H.store h.pm
  obtain ⟨b1, b2, b3⟩ := fill_bytes (resolve := resolve) w H f e.cell
  have hm := fill_managed (resolve := resolve) w H f e.cell H.store
  refine ⟨by rw [r1]; exact h.handle, by rw [hm, r2]; exact h.cell_lt, by rw [hm]; exact h.inj, ?_, p1, ?_,
    by rw [r3]; exact h.disk⟩
  · intro c x hx
    rw [r2]
    by_cases hc : c = e.cell
    · rw [hc]; exact h.cell_lt f e he
    · rw [b1 c hc] at hx; exact h.bytes_lt c x hx
  · intro g e' x hg hx
    rw [hm] at hg
    by_cases hc : e'.cell = e.cell
    · have hgf := h.inj g f e' e hg he hc
      subst hgf
      cases hb : w.bytes e.cell with
      | some y =>
        rw [hc, b2 y hb] at hx
        injection hx with hx; subst hx
        obtain ⟨g1, g2⟩ := h.good g e y he hb
        exact ⟨g1, fun p hp => (g2 p hp).imp id (p2 _ _)⟩
      | none =>
        rw [hc, b3 hb] at hx
        injection hx with hx; subst hx
        refine ⟨content_gives h.disk _ _, fun p hp => ?_⟩
        cases hid : get H.am.byId g with
        | some v => exact Or.inl (by simp)
        | none => exact Or.inr (p3 hb rfl hid p hp)
    · rw [b1 _ hc] at hx
      obtain ⟨g1, g2⟩ := h.good g e' x hg hx
      exact ⟨g1, fun p hp => (g2 p hp).imp id (p2 _ _)⟩

theorem live_read {w : World Path Fid V} {H : Handle Path Fid V} (h : LiveInv resolve P w H) (f : Fid) :
    LiveInv resolve P (read resolve w 0 f) H := by
  unfold read
  rw [h.handle]
  simp only
  have h' := live_slot h f
  obtain ⟨e, he, -⟩ := slot_managed w H.store f
  simp only [he]
  exact live_fill h' he

theorem live_evict {w : World Path Fid V} {H : Handle Path Fid V} (h : LiveInv resolve P w H) (t : Nat) :
    LiveInv resolve P (evict w 0 t) H := by
  unfold evict
  rw [h.handle]
  simp only
  have sub : ∀ f e, ((w.stores H.store).managed f).filter
      (fun e => decide ¬ (((w.bytes e.cell).map (·.rev)).getD 0 + t < H.revision)) = some e →
      (w.stores H.store).managed f = some e := by
    intro f e he
    rw [Option.filter_eq_some_iff] at he
    exact he.1
  refine ⟨h.handle, ?_, ?_, h.bytes_lt, ?_, ?_, h.disk⟩
  · intro f e he; simp only [set_eq] at he; exact h.cell_lt f e (sub f e he)
  · intro f f' e e' he he' hc; simp only [set_eq] at he he'; exact h.inj f f' e e' (sub _ _ he) (sub _ _ he') hc
  · simp only [set_eq]; exact h.pm
  · intro f e x he hx; simp only [set_eq] at he ⊢; exact h.good f e x (sub _ _ he) hx

/-- Reading: the result is what the origin gives; a cell that was filled keeps its content. -/
theorem live_readResult {w : World Path Fid V} {H : Handle Path Fid V} (h : LiveInv resolve P w H) (f : Fid) :
    ∃ v, readResult resolve w 0 f = some v ∧ (origin resolve H.am f).Gives P v := by
  have hr := live_read h f
  unfold readResult cached
  rw [hr.handle]
  unfold read at hr ⊢
  rw [h.handle] at hr ⊢
  simp only at hr ⊢
  obtain ⟨e, he, -⟩ := slot_managed w H.store f
  simp only [he] at hr ⊢
  have hm := fill_managed (resolve := resolve) (slot w H.store f) H f e.cell H.store
  obtain ⟨b1, b2, b3⟩ := fill_bytes (resolve := resolve) (slot w H.store f) H f e.cell
  simp only [Option.bind_eq_bind, Option.bind_some, hm, he]
  cases hb : (slot w H.store f).bytes e.cell with
  | some y =>
    have := b2 y hb
    rw [this]
    exact ⟨y.val, rfl, (hr.good f e y (by rw [hm]; exact he) this).1⟩
  | none =>
    have := b3 hb
    rw [this]
    exact ⟨_, rfl, (hr.good f e _ (by rw [hm]; exact he) this).1⟩

end Tinymist.Vfs
