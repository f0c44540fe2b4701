import Verif.Lemmas.VfsInv
/-! Invariant of a live file system and its snapshots under calm schedules. -/
namespace Tinymist.Vfs
variable {Path Fid V : Type} [DecidableEq Path] [DecidableEq Fid]
variable {resolve : Fid → Except V Path} {P : Path → V → Prop}

/-- Cell `c` is used for file `f` somewhere. -/
def At (w : World Path Fid V) (f : Fid) (c : Nat) : Prop :=
  (∃ s e, (w.stores s).managed f = some e ∧ e.cell = c) ∨ ∃ h, (h, f, c) ∈ w.pending

/-- Handle `H` will read file `f` through cell `c`. -/
def Uses (w : World Path Fid V) (H : Handle Path Fid V) (f : Fid) (c : Nat) : Prop :=
  (∃ e, (w.stores H.store).managed f = some e ∧ e.cell = c) ∨
  ∃ h, w.handles h = some H ∧ (h, f, c) ∈ w.pending

theorem Uses.at {w : World Path Fid V} {H : Handle Path Fid V} {f : Fid} {c : Nat} (h : Uses w H f c) : At w f c := by
  rcases h with ⟨e, h1, h2⟩ | ⟨h, -, h2⟩
  · exact Or.inl ⟨_, e, h1, h2⟩
  · exact Or.inr ⟨h, h2⟩

def Living (w : World Path Fid V) (H : Handle Path Fid V) : Prop := ∃ h, w.handles h = some H

structure Inv (resolve : Fid → Except V Path) (P : Path → V → Prop) (w : World Path Fid V) : Prop where
  store_lt : ∀ H, Living w H → H.store < w.nextStore
  handle_lt : ∀ h H, w.handles h = some H → h < w.nextHandle
  pend : ∀ x ∈ w.pending, ∃ H, w.handles x.1 = some H
  at_lt : ∀ f c, At w f c → c < w.nextCell
  owner : ∀ f f' c, At w f c → At w f' c → f = f'
  bytes_lt : ∀ c x, w.bytes c = some x → c < w.nextCell
  share : ∀ H H' f c, Living w H → Living w H' → Uses w H f c → Uses w H' f c →
    origin resolve H.am f = origin resolve H'.am f
  good : ∀ H f c x, Living w H → Uses w H f c → w.bytes c = some x → (origin resolve H.am f).Gives P x.val
  same : ∀ H H', Living w H → Living w H' → H.store = H'.store →
    ∀ f, origin resolve H.am f = origin resolve H'.am f
  byId : ∀ H f p, Living w H → resolve f = .ok p → get H.am.byId f = none
  pm : ∀ s, (w.stores s).paths.Ok resolve
  safe : ∀ H f e p, Living w H → (w.stores H.store).managed f = some e → resolve f = .ok p →
    f ∈ (w.stores H.store).paths.paths p ∨
    (w.bytes e.cell = none ∧
     (∃ h H', w.handles h = some H' ∧ H'.store = H.store ∧ (h, f, e.cell) ∈ w.pending) ∧
     ∀ H', Living w H' → Uses w H' f e.cell → H'.store = H.store)
  disk : ∀ p, P p (w.disk p)

theorem inv_init (disk : Path → V) (h : ∀ p, P p (disk p)) : Inv resolve P (init disk : World Path Fid V) := by
  have hl : ∀ H, Living (init disk : World Path Fid V) H → H = ⟨0, 2, ⟨[], [], []⟩⟩ := by
    rintro H ⟨k, hk⟩
    simp only [init, set] at hk
    split at hk
    · injection hk with hk; exact hk.symm
    · cases hk
  have ha : ∀ f c, ¬ At (init disk : World Path Fid V) f c := by
    rintro f c (⟨s, e, h, -⟩ | ⟨k, hk⟩)
    · cases h
    · cases hk
  refine ⟨?_, ?_, fun _ h => (by cases h), fun f c h => (ha f c h).elim, fun _ _ _ h => (ha _ _ h).elim, fun _ _ h => (by cases h),
    fun _ _ _ _ _ _ h => (ha _ _ h.at).elim, fun _ _ _ _ _ h => (ha _ _ h.at).elim, ?_, ?_,
    fun _ => PathMap.ok_empty _, fun _ _ _ _ _ h => (by cases h), h⟩
  · intro H hH; rw [hl H hH]; exact Nat.lt_succ_self _
  · intro k H hk
    simp only [init, set] at hk ⊢
    split at hk
    · omega
    · cases hk
  · intro H H' h1 h2 _ f; rw [hl H h1, hl H' h2]
  · intro H f p h1 _; rw [hl H h1]; rfl

/-- Reads that find or make their entry. -/
theorem inv_begin {w : World Path Fid V} (h : Inv resolve P w) (k : Nat) (f : Fid) :
    Inv resolve P (beginRead w k f) := by
  unfold beginRead
  cases hk : w.handles k with
  | none => exact h
  | some K =>
    have hK : Living w K := ⟨k, hk⟩
    simp only
    unfold slot
    cases hm : (w.stores K.store).managed f with
    | some e0 =>
      simp only [hm]
      have huse : Uses w K f e0.cell := Or.inl ⟨e0, hm, rfl⟩
      have hu : ∀ H g c, Uses { w with pending := w.pending ++ [(k, f, e0.cell)] } H g c → Uses w H g c := by
        intro H g c hu
        rcases hu with hu | ⟨j, h1, h2⟩
        · exact Or.inl hu
        · rcases List.mem_append.mp h2 with h2 | h2
          · exact Or.inr ⟨j, h1, h2⟩
          · have e := List.mem_singleton.mp h2
            injection e with e1 e2
            injection e2 with e2 e3
            subst e1 e2 e3
            have : K = H := by rw [hk] at h1; exact Option.some.inj h1
            subst this
            exact huse
      have ha : ∀ g c, At { w with pending := w.pending ++ [(k, f, e0.cell)] } g c → At w g c := by
        intro g c hu
        rcases hu with hu | ⟨j, h2⟩
        · exact Or.inl hu
        · rcases List.mem_append.mp h2 with h2 | h2
          · exact Or.inr ⟨j, h2⟩
          · have e := List.mem_singleton.mp h2
            injection e with e1 e2
            injection e2 with e2 e3
            subst e1 e2 e3
            exact huse.at
      have hp : ∀ x ∈ w.pending ++ [(k, f, e0.cell)], ∃ H, w.handles x.1 = some H := by
        intro x hx
        rcases List.mem_append.mp hx with hx | hx
        · exact h.pend x hx
        · rw [List.mem_singleton.mp hx]; exact ⟨K, hk⟩
      refine ⟨h.store_lt, h.handle_lt, hp, fun g c x => h.at_lt g c (ha g c x),
        fun g g' c x y => h.owner g g' c (ha _ _ x) (ha _ _ y), h.bytes_lt,
        fun H H' g c l l' x y => h.share H H' g c l l' (hu _ _ _ x) (hu _ _ _ y),
        fun H g c x l u b => h.good H g c x l (hu _ _ _ u) b, h.same, h.byId, h.pm, ?_, h.disk⟩
      intro H g e p l he hp
      rcases h.safe H g e p l he hp with s | ⟨s1, ⟨j, J, s2, s3, s4⟩, s5⟩
      · exact Or.inl s
      · exact Or.inr ⟨s1, ⟨j, J, s2, s3, List.mem_append_left _ s4⟩, fun H' l' u => s5 H' l' (hu _ _ _ u)⟩
    | none =>
      simp only [set_eq]
      -- the world after the step
      generalize hw' : ({ w with
          stores := set w.stores K.store
            { w.stores K.store with managed := set (w.stores K.store).managed f (some ⟨0, w.nextCell⟩) }
          nextCell := w.nextCell + 1
          pending := w.pending ++ [(k, f, w.nextCell)] } : World Path Fid V) = w'
      have hmng : ∀ s g, (w'.stores s).managed g =
          if s = K.store ∧ g = f then some ⟨0, w.nextCell⟩ else (w.stores s).managed g := by
        intro s g
        subst hw'
        simp only
        by_cases hs : s = K.store
        · subst hs
          rw [set_eq]
          by_cases hg : g = f
          · subst hg; simp [set_eq]
          · simp [set_ne _ _ hg, hg]
        · simp [set_ne _ _ hs, hs]
      have hpaths : ∀ s, (w'.stores s).paths = (w.stores s).paths := by
        intro s
        subst hw'
        simp only
        by_cases hs : s = K.store
        · subst hs; rw [set_eq]
        · rw [set_ne _ _ hs]
      have hpend : w'.pending = w.pending ++ [(k, f, w.nextCell)] := by subst hw'; rfl
      have hhan : w'.handles = w.handles := by subst hw'; rfl
      have hby : w'.bytes = w.bytes := by subst hw'; rfl
      have hnx : w'.nextCell = w.nextCell + 1 := by subst hw'; rfl
      have hliv : ∀ H, Living w' H → Living w H := by
        rintro H ⟨j, hj⟩; rw [hhan] at hj; exact ⟨j, hj⟩
      have ha : ∀ g c, At w' g c → At w g c ∨ (g = f ∧ c = w.nextCell) := by
        intro g c hu
        rcases hu with ⟨s, e, h1, h2⟩ | ⟨j, h2⟩
        · rw [hmng] at h1
          split at h1
          · rename_i hc
            injection h1 with h1
            exact Or.inr ⟨hc.2, by rw [← h2, ← h1]⟩
          · exact Or.inl (Or.inl ⟨s, e, h1, h2⟩)
        · rw [hpend] at h2
          rcases List.mem_append.mp h2 with h2 | h2
          · exact Or.inl (Or.inr ⟨j, h2⟩)
          · have e := List.mem_singleton.mp h2
            injection e with e1 e2
            injection e2 with e2 e3
            exact Or.inr ⟨e2, e3⟩
      have hu : ∀ H g c, Living w' H → Uses w' H g c →
          (c ≠ w.nextCell ∧ Uses w H g c) ∨ (g = f ∧ c = w.nextCell ∧ H.store = K.store) := by
        intro H g c hl hu
        rcases hu with ⟨e, h1, h2⟩ | ⟨j, h1, h2⟩
        · rw [hmng] at h1
          split at h1
          · rename_i hc
            injection h1 with h1
            exact Or.inr ⟨hc.2, by rw [← h2, ← h1], hc.1⟩
          · refine Or.inl ⟨?_, Or.inl ⟨e, h1, h2⟩⟩
            have := h.at_lt g c (Or.inl ⟨_, e, h1, h2⟩)
            omega
        · rw [hpend] at h2
          rw [hhan] at h1
          rcases List.mem_append.mp h2 with h2 | h2
          · refine Or.inl ⟨?_, Or.inr ⟨j, h1, h2⟩⟩
            have := h.at_lt g c (Or.inr ⟨j, h2⟩)
            omega
          · have e := List.mem_singleton.mp h2
            injection e with e1 e2
            injection e2 with e2 e3
            subst e1
            have : K = H := by rw [hk] at h1; exact Option.some.inj h1
            subst this
            exact Or.inr ⟨e2, e3, rfl⟩
      have hnew : ∀ x, w.bytes w.nextCell ≠ some x := fun x e => by
        have := h.bytes_lt _ _ e; omega
      refine ⟨?_, ?_, ?_, ?_, ?_, ?_, ?_, ?_, ?_, ?_, ?_, ?_, ?_⟩
      · intro H hl
        have : w'.nextStore = w.nextStore := by subst hw'; rfl
        rw [this]; exact h.store_lt H (hliv H hl)
      · intro j H hj
        have : w'.nextHandle = w.nextHandle := by subst hw'; rfl
        rw [this]; rw [hhan] at hj; exact h.handle_lt j H hj
      · intro x hx
        rw [hpend] at hx
        rw [hhan]
        rcases List.mem_append.mp hx with hx | hx
        · exact h.pend x hx
        · rw [List.mem_singleton.mp hx]; exact ⟨K, hk⟩
      · intro g c hc
        rw [hnx]
        rcases ha g c hc with x | ⟨-, x⟩
        · exact Nat.lt_succ_of_lt (h.at_lt g c x)
        · omega
      · intro g g' c x y
        rcases ha g c x with x | ⟨x1, x2⟩ <;> rcases ha g' c y with y | ⟨y1, y2⟩
        · exact h.owner g g' c x y
        · have := h.at_lt g c x; omega
        · have := h.at_lt g' c y; omega
        · rw [x1, y1]
      · intro c x hx
        rw [hby] at hx; rw [hnx]
        exact Nat.lt_succ_of_lt (h.bytes_lt c x hx)
      · intro H H' g c l l' x y
        rcases hu H g c l x with ⟨x0, x⟩ | ⟨x1, x2, x3⟩ <;> rcases hu H' g c l' y with ⟨y0, y⟩ | ⟨y1, y2, y3⟩
        · exact h.share H H' g c (hliv _ l) (hliv _ l') x y
        · exact absurd y2 x0
        · exact absurd x2 y0
        · exact h.same H H' (hliv _ l) (hliv _ l') (x3.trans y3.symm) g
      · intro H g c x l u b
        rw [hby] at b
        rcases hu H g c l u with ⟨-, u⟩ | ⟨-, u2, -⟩
        · exact h.good H g c x (hliv _ l) u b
        · subst u2; exact absurd b (hnew x)
      · intro H H' l l'
        exact h.same H H' (hliv _ l) (hliv _ l')
      · intro H g p l
        exact h.byId H g p (hliv _ l)
      · intro s; rw [hpaths]; exact h.pm s
      · intro H g e p l he hp
        rw [hpaths]
        rw [hmng] at he
        split at he
        · rename_i hc
          injection he with he
          subst he
          obtain ⟨c1, c2⟩ := hc
          subst c2
          right
          refine ⟨?_, ⟨k, K, by rw [hhan]; exact hk, c1.symm, by rw [hpend]; simp⟩, ?_⟩
          · rw [hby]
            cases hb : w.bytes w.nextCell with
            | none => rfl
            | some x => exact absurd hb (hnew x)
          · intro H' l' u'
            rcases hu H' g _ l' u' with ⟨x, -⟩ | ⟨-, -, x⟩
            · exact absurd rfl x
            · rw [x, c1]
        · rcases h.safe H g e p (hliv _ l) he hp with s | ⟨s1, ⟨j, J, s2, s3, s4⟩, s5⟩
          · exact Or.inl s
          · refine Or.inr ⟨by rw [hby]; exact s1, ⟨j, J, by rw [hhan]; exact s2, s3, by
              rw [hpend]; exact List.mem_append_left _ s4⟩, fun H' l' u' => ?_⟩
            rcases hu H' g _ l' u' with ⟨-, x⟩ | ⟨-, x, -⟩
            · exact s5 H' (hliv _ l') x
            · have := h.at_lt g e.cell (Or.inl ⟨_, e, he, rfl⟩)
              omega
      · have : w'.disk = w.disk := by subst hw'; rfl
        rw [this]; exact h.disk

/-- Filling a cell by one of its users. -/
theorem inv_fill {w : World Path Fid V} (h : Inv resolve P w) {K : Handle Path Fid V} (hK : Living w K) {f : Fid}
    {c : Nat} (hu : Uses w K f c) :
    Inv resolve P (fill resolve w K f c) ∧
    ∀ H e p, Living w H → (w.stores H.store).managed f = some e → e.cell = c → resolve f = .ok p →
      f ∈ ((fill resolve w K f c).stores H.store).paths.paths p := by
  obtain ⟨r1, r2, r3, r4, r5, r6⟩ := fill_rest (resolve := resolve) w K f c
  have fp := fun s => fill_paths (resolve := resolve) w K f c s (h.pm s)
  obtain ⟨b1, b2, b3⟩ := fill_bytes (resolve := resolve) w K f c
  have hm := fill_managed (resolve := resolve) w K f c
  have hl : ∀ H, Living (fill resolve w K f c) H ↔ Living w H := by
    intro H; unfold Living; rw [r1]
  have hus : ∀ H g d, Uses (fill resolve w K f c) H g d ↔ Uses w H g d := by
    intro H g d; unfold Uses; rw [hm, r1, r4]
  have hat : ∀ g d, At (fill resolve w K f c) g d → At w g d := by
    intro g d hx; unfold At at hx ⊢; simp only [hm, r4] at hx; exact hx
  have second : ∀ H e p, Living w H → (w.stores H.store).managed f = some e → e.cell = c → resolve f = .ok p →
      f ∈ ((fill resolve w K f c).stores H.store).paths.paths p := by
    intro H e p l he hc hp
    rcases h.safe H f e p l he hp with s | ⟨s1, -, s3⟩
    · exact (fp H.store).2.1 f p s
    · subst hc
      exact (fp H.store).2.2 s1 (s3 K hK hu).symm (h.byId K f p hK hp) p hp
  refine ⟨⟨?_, ?_, by rw [r4, r1]; exact h.pend, ?_, ?_, ?_, ?_, ?_, ?_, ?_, fun s => (fp s).1, ?_, by rw [r3]; exact h.disk⟩, second⟩
  · intro H l; rw [r5]; exact h.store_lt H ((hl H).mp l)
  · intro j H hj; rw [r6]; rw [r1] at hj; exact h.handle_lt j H hj
  · intro g d hd; rw [r2]; exact h.at_lt g d (hat g d hd)
  · intro g g' d x y; exact h.owner g g' d (hat _ _ x) (hat _ _ y)
  · intro d x hx
    rw [r2]
    by_cases hd : d = c
    · rw [hd]; exact h.at_lt f c hu.at
    · rw [b1 d hd] at hx; exact h.bytes_lt d x hx
  · intro H H' g d l l' x y
    exact h.share H H' g d ((hl _).mp l) ((hl _).mp l') ((hus _ _ _).mp x) ((hus _ _ _).mp y)
  · intro H g d x l0 u0 b
    have l := (hl _).mp l0
    have u := (hus _ _ _).mp u0
    clear l0 u0
    by_cases hd : d = c
    · subst hd
      have hgf := h.owner g f d u.at hu.at
      subst hgf
      cases hb : w.bytes d with
      | some y =>
        rw [b2 y hb] at b
        injection b with b; subst b
        exact h.good H g d y l u hb
      | none =>
        rw [b3 hb] at b
        injection b with b; subst b
        rw [h.share H K g d l hK u hu]
        exact content_gives h.disk _ _
    · rw [b1 d hd] at b
      exact h.good H g d x l u b
  · intro H H' l l'
    exact h.same H H' ((hl _).mp l) ((hl _).mp l')
  · intro H g p l
    exact h.byId H g p ((hl _).mp l)
  · intro H g e p l0 he hp
    have l := (hl _).mp l0
    clear l0
    rw [hm] at he
    by_cases hc : e.cell = c
    · have hgf := h.owner g f c (Or.inl ⟨_, e, he, hc⟩) hu.at
      subst hgf
      exact Or.inl (second H e p l he hc hp)
    · rcases h.safe H g e p l he hp with s | ⟨s1, ⟨j, J, s2, s3, s4⟩, s5⟩
      · exact Or.inl ((fp H.store).2.1 g p s)
      · exact Or.inr ⟨by rw [b1 _ hc]; exact s1, ⟨j, J, by rw [r1]; exact s2, s3, by rw [r4]; exact s4⟩,
          fun H' l' u' => s5 H' ((hl _).mp l') ((hus _ _ _).mp u')⟩

/-- A read that is over. -/
theorem inv_unpend {w : World Path Fid V} (h : Inv resolve P w) {i : Nat} {k : Nat} {f : Fid} {c : Nat}
    (hi : w.pending[i]? = some (k, f, c))
    (hs : ∀ H e p, Living w H → (w.stores H.store).managed f = some e → e.cell = c → resolve f = .ok p →
      f ∈ (w.stores H.store).paths.paths p) :
    Inv resolve P { w with pending := w.pending.eraseIdx i } := by
  have hsub : ∀ x, x ∈ w.pending.eraseIdx i → x ∈ w.pending := fun x hx => List.mem_of_mem_eraseIdx hx
  have hu : ∀ H g d, Uses { w with pending := w.pending.eraseIdx i } H g d → Uses w H g d := by
    intro H g d hx
    rcases hx with hx | ⟨j, h1, h2⟩
    · exact Or.inl hx
    · exact Or.inr ⟨j, h1, hsub _ h2⟩
  have ha : ∀ g d, At { w with pending := w.pending.eraseIdx i } g d → At w g d := by
    intro g d hx
    rcases hx with hx | ⟨j, h2⟩
    · exact Or.inl hx
    · exact Or.inr ⟨j, hsub _ h2⟩
  refine ⟨h.store_lt, h.handle_lt, fun x hx => h.pend x (hsub x hx), fun g d x => h.at_lt g d (ha _ _ x),
    fun g g' d x y => h.owner g g' d (ha _ _ x) (ha _ _ y), h.bytes_lt,
    fun H H' g d l l' x y => h.share H H' g d l l' (hu _ _ _ x) (hu _ _ _ y),
    fun H g d x l u b => h.good H g d x l (hu _ _ _ u) b, h.same, h.byId, h.pm, ?_, h.disk⟩
  intro H g e p l he hp
  rcases h.safe H g e p l he hp with s | ⟨s1, ⟨j, J, s2, s3, s4⟩, s5⟩
  · exact Or.inl s
  · by_cases hx : (j, g, e.cell) ∈ w.pending.eraseIdx i
    · exact Or.inr ⟨s1, ⟨j, J, s2, s3, hx⟩, fun H' l' u' => s5 H' l' (hu _ _ _ u')⟩
    · left
      -- it was the read that is over
      obtain ⟨n, hn⟩ := List.getElem?_of_mem s4
      have : n = i := by
        apply Classical.byContradiction
        intro hne
        apply hx
        rw [List.mem_eraseIdx_iff_getElem?]
        exact ⟨n, hne, hn⟩
      subst this
      rw [hi] at hn
      injection hn with hn
      injection hn with hn1 hn2
      injection hn2 with hn2 hn3
      subst hn2
      exact hs H e p l he hn3.symm hp

theorem inv_finish {w : World Path Fid V} (h : Inv resolve P w) (i : Nat) :
    Inv resolve P (finishRead resolve w i) := by
  unfold finishRead
  cases hi : w.pending[i]? with
  | none => exact h
  | some x =>
    obtain ⟨k, f, c⟩ := x
    simp only
    cases hk : w.handles k with
    | none => exact h
    | some K =>
      simp only
      have hK : Living w K := ⟨k, hk⟩
      have hmem : (k, f, c) ∈ w.pending := List.mem_of_getElem? hi
      obtain ⟨f1, f2⟩ := inv_fill h hK (Or.inr ⟨k, hk, hmem⟩)
      have r := fill_rest (resolve := resolve) w K f c
      have := inv_unpend f1 (i := i) (k := k) (f := f) (c := c) (by rw [r.2.2.2.1]; exact hi) (by
        intro H e p l he hc hp
        rw [fill_managed] at he
        exact f2 H e p (by unfold Living at l ⊢; rw [r.1] at l; exact l) he hc hp)
      rw [r.2.2.2.1] at this
      exact this

/-- An uninterrupted read is a begin and a finish. -/
theorem read_eq (w : World Path Fid V) (k : Nat) (f : Fid) :
    read resolve w k f = finishRead resolve (beginRead w k f) w.pending.length ∨ w.handles k = none := by
  unfold read beginRead
  cases hk : w.handles k with
  | none => exact Or.inr rfl
  | some K =>
    left
    simp only
    obtain ⟨e, he, hs⟩ := slot_managed w K.store f
    have h1 : (slot w K.store f).pending = w.pending := by unfold slot; split <;> rfl
    have h2 : (slot w K.store f).handles k = some K := by
      rw [← hk]; unfold slot; split <;> rfl
    simp only [he]
    unfold finishRead
    simp only [h1, List.getElem?_append_right (Nat.le_refl _), Nat.sub_self, List.getElem?_cons_zero, h2]
    generalize slot w K.store f = w1 at *
    have e1 : (w.pending ++ [(k, f, e.cell)]).eraseIdx w.pending.length = w.pending := by
      rw [List.eraseIdx_append_of_length_le (Nat.le_refl _)]
      simp
    rw [e1, ← h1]
    unfold fill
    simp only
    cases w1.bytes e.cell with
    | none => rfl
    | some x => rfl

theorem inv_read {w : World Path Fid V} (h : Inv resolve P w) (k : Nat) (f : Fid) :
    Inv resolve P (read resolve w k f) := by
  rcases read_eq (resolve := resolve) w k f with e | e
  · rw [e]; exact inv_finish (inv_begin h k f) _
  · unfold read; rw [e]; exact h

theorem inv_snapshot {w : World Path Fid V} (h : Inv resolve P w) (k : Nat) : Inv resolve P (snapshot w k) := by
  unfold snapshot
  cases hk : w.handles k with
  | none => exact h
  | some K =>
    simp only
    generalize hw' : ({ w with
      handles := set w.handles w.nextHandle (some K)
      nextHandle := w.nextHandle + 1 } : World Path Fid V) = w'
    have hhan : w'.handles = set w.handles w.nextHandle (some K) := by subst hw'; rfl
    have hst : w'.stores = w.stores := by subst hw'; rfl
    have hpe : w'.pending = w.pending := by subst hw'; rfl
    have hby : w'.bytes = w.bytes := by subst hw'; rfl
    have hl : ∀ H, Living w' H → Living w H := by
      rintro H ⟨j, hj⟩
      rw [hhan] at hj
      simp only [set] at hj
      split at hj
      · injection hj with hj; subst hj; exact ⟨k, hk⟩
      · exact ⟨j, hj⟩
    have hold : ∀ j H, w.handles j = some H → w'.handles j = some H := by
      intro j H hj
      have := h.handle_lt j H hj
      rw [hhan, set_ne _ _ (by omega)]
      exact hj
    have hu : ∀ H g d, Uses w' H g d → Uses w H g d := by
      intro H g d hx
      unfold Uses at hx
      rw [hst, hpe] at hx
      rcases hx with hx | ⟨j, h1, h2⟩
      · exact Or.inl hx
      · obtain ⟨J, hJ⟩ := h.pend _ h2
        rw [hold j J hJ] at h1
        injection h1 with h1
        subst h1
        exact Or.inr ⟨j, hJ, h2⟩
    have ha : ∀ g d, At w' g d → At w g d := by
      intro g d hx; unfold At at hx ⊢; rw [hst, hpe] at hx; exact hx
    refine ⟨?_, ?_, ?_, ?_, ?_, ?_, ?_, ?_, ?_, ?_, ?_, ?_, ?_⟩
    · intro H l
      have : w'.nextStore = w.nextStore := by subst hw'; rfl
      rw [this]; exact h.store_lt H (hl H l)
    · intro j H hj
      have : w'.nextHandle = w.nextHandle + 1 := by subst hw'; rfl
      rw [this]
      rw [hhan] at hj
      simp only [set] at hj
      split at hj
      · omega
      · exact Nat.lt_succ_of_lt (h.handle_lt j H hj)
    · intro x hx
      rw [hpe] at hx
      obtain ⟨J, hJ⟩ := h.pend x hx
      exact ⟨J, hold _ _ hJ⟩
    · intro g d x
      have : w'.nextCell = w.nextCell := by subst hw'; rfl
      rw [this]; exact h.at_lt g d (ha _ _ x)
    · intro g g' d x y; exact h.owner g g' d (ha _ _ x) (ha _ _ y)
    · intro c x hx
      have : w'.nextCell = w.nextCell := by subst hw'; rfl
      rw [hby] at hx; rw [this]; exact h.bytes_lt c x hx
    · intro H H' g d l l' x y
      exact h.share H H' g d (hl _ l) (hl _ l') (hu _ _ _ x) (hu _ _ _ y)
    · intro H g d x l u b
      rw [hby] at b
      exact h.good H g d x (hl _ l) (hu _ _ _ u) b
    · intro H H' l l'; exact h.same H H' (hl _ l) (hl _ l')
    · intro H g p l; exact h.byId H g p (hl _ l)
    · intro s; rw [hst]; exact h.pm s
    · intro H g e p l he hp
      rw [hst] at he ⊢
      rcases h.safe H g e p (hl _ l) he hp with s | ⟨s1, ⟨j, J, s2, s3, s4⟩, s5⟩
      · exact Or.inl s
      · exact Or.inr ⟨by rw [hby]; exact s1, ⟨j, J, hold _ _ s2, s3, by rw [hpe]; exact s4⟩,
          fun H' l' u' => s5 H' (hl _ l') (hu _ _ _ u')⟩
    · have : w'.disk = w.disk := by subst hw'; rfl
      rw [this]; exact h.disk

theorem inv_fork {w : World Path Fid V} (h : Inv resolve P w) (k : Nat) : Inv resolve P (fork w k) := by
  unfold fork
  cases hk : w.handles k with
  | none => exact h
  | some K =>
    simp only
    generalize hw' : ({ w with
      stores := set w.stores w.nextStore .empty
      nextStore := w.nextStore + 1
      handles := set w.handles w.nextHandle (some ⟨w.nextStore, 2, K.am⟩)
      nextHandle := w.nextHandle + 1 } : World Path Fid V) = w'
    have hhan : w'.handles = set w.handles w.nextHandle (some ⟨w.nextStore, 2, K.am⟩) := by subst hw'; rfl
    have hst : w'.stores = set w.stores w.nextStore .empty := by subst hw'; rfl
    have hpe : w'.pending = w.pending := by subst hw'; rfl
    have hby : w'.bytes = w.bytes := by subst hw'; rfl
    have hK : Living w K := ⟨k, hk⟩
    have hl : ∀ H, Living w' H → Living w H ∨ H = ⟨w.nextStore, 2, K.am⟩ := by
      rintro H ⟨j, hj⟩
      rw [hhan] at hj
      simp only [set] at hj
      split at hj
      · injection hj with hj; exact Or.inr hj.symm
      · exact Or.inl ⟨j, hj⟩
    have hold : ∀ j H, w.handles j = some H → w'.handles j = some H := by
      intro j H hj
      have := h.handle_lt j H hj
      rw [hhan, set_ne _ _ (by omega)]
      exact hj
    have hm : ∀ s g e, (w'.stores s).managed g = some e → (w.stores s).managed g = some e := by
      intro s g e he
      rw [hst] at he
      simp only [set] at he
      split at he
      · cases he
      · exact he
    have hu : ∀ H g d, Living w' H → Uses w' H g d → Living w H ∧ Uses w H g d := by
      intro H g d l hx
      rcases hx with ⟨e, h1, h2⟩ | ⟨j, h1, h2⟩
      · rcases hl H l with l | l
        · exact ⟨l, Or.inl ⟨e, hm _ _ _ h1, h2⟩⟩
        · subst l
          rw [hst, set_eq] at h1
          cases h1
      · rw [hpe] at h2
        obtain ⟨J, hJ⟩ := h.pend _ h2
        rw [hold j J hJ] at h1
        injection h1 with h1
        subst h1
        exact ⟨⟨j, hJ⟩, Or.inr ⟨j, hJ, h2⟩⟩
    have ha : ∀ g d, At w' g d → At w g d := by
      intro g d hx
      rcases hx with ⟨s, e, h1, h2⟩ | ⟨j, h2⟩
      · exact Or.inl ⟨s, e, hm _ _ _ h1, h2⟩
      · rw [hpe] at h2; exact Or.inr ⟨j, h2⟩
    refine ⟨?_, ?_, ?_, ?_, ?_, ?_, ?_, ?_, ?_, ?_, ?_, ?_, ?_⟩
    · intro H l
      have : w'.nextStore = w.nextStore + 1 := by subst hw'; rfl
      rw [this]
      rcases hl H l with l | l
      · exact Nat.lt_succ_of_lt (h.store_lt H l)
      · subst l; exact Nat.lt_succ_self _
    · intro j H hj
      have : w'.nextHandle = w.nextHandle + 1 := by subst hw'; rfl
      rw [this]
      rw [hhan] at hj
      simp only [set] at hj
      split at hj
      · omega
      · exact Nat.lt_succ_of_lt (h.handle_lt j H hj)
    · intro x hx
      rw [hpe] at hx
      obtain ⟨J, hJ⟩ := h.pend x hx
      exact ⟨J, hold _ _ hJ⟩
    · intro g d x
      have : w'.nextCell = w.nextCell := by subst hw'; rfl
      rw [this]; exact h.at_lt g d (ha _ _ x)
    · intro g g' d x y; exact h.owner g g' d (ha _ _ x) (ha _ _ y)
    · intro c x hx
      have : w'.nextCell = w.nextCell := by subst hw'; rfl
      rw [hby] at hx; rw [this]; exact h.bytes_lt c x hx
    · intro H H' g d l l' x y
      obtain ⟨l, x⟩ := hu _ _ _ l x
      obtain ⟨l', y⟩ := hu _ _ _ l' y
      exact h.share H H' g d l l' x y
    · intro H g d x l u b
      rw [hby] at b
      obtain ⟨l, u⟩ := hu _ _ _ l u
      exact h.good H g d x l u b
    · intro H H' l l' hs
      rcases hl H l with l | l <;> rcases hl H' l' with l' | l'
      · exact h.same H H' l l' hs
      · have := h.store_lt H l; rw [hs, l'] at this; simp at this
      · have := h.store_lt H' l'; rw [← hs, l] at this; simp at this
      · rw [l, l']; exact fun _ => rfl
    · intro H g p l hp
      rcases hl H l with l | l
      · exact h.byId H g p l hp
      · subst l; exact h.byId K g p hK hp
    · intro s
      rw [hst]
      simp only [set]
      split
      · exact PathMap.ok_empty _
      · exact h.pm s
    · intro H g e p l he hp
      obtain ⟨l, -⟩ := hu H g e.cell l (Or.inl ⟨e, he, rfl⟩)
      have hne : H.store ≠ w.nextStore := by have := h.store_lt H l; omega
      have he := hm _ _ _ he
      rw [hst, set_ne _ _ hne]
      rcases h.safe H g e p l he hp with s | ⟨s1, ⟨j, J, s2, s3, s4⟩, s5⟩
      · exact Or.inl s
      · refine Or.inr ⟨by rw [hby]; exact s1, ⟨j, J, hold _ _ s2, s3, by rw [hpe]; exact s4⟩, fun H' l' u' => ?_⟩
        obtain ⟨l', u'⟩ := hu _ _ _ l' u'
        exact s5 H' l' u'
    · have : w'.disk = w.disk := by subst hw'; rfl
      rw [this]; exact h.disk

theorem inv_evict {w : World Path Fid V} (h : Inv resolve P w) (k t : Nat) : Inv resolve P (evict w k t) := by
  unfold evict
  cases hk : w.handles k with
  | none => exact h
  | some K =>
    simp only
    generalize hs' : (⟨fun f => Option.filter
      (fun e => decide ¬ (Option.map (fun x => x.rev) (w.bytes e.cell)).getD 0 + t < K.revision)
      ((w.stores K.store).managed f), (w.stores K.store).paths⟩ : Store Path Fid) = s'
    have hm : ∀ s g e, (set w.stores K.store s' s).managed g = some e → (w.stores s).managed g = some e := by
      intro s g e he
      by_cases hs : s = K.store
      · subst hs
        rw [set_eq, ← hs'] at he
        simp only [Option.filter_eq_some_iff] at he
        exact he.1
      · rw [set_ne _ _ hs] at he; exact he
    have hp : ∀ s, (set w.stores K.store s' s).paths = (w.stores s).paths := by
      intro s
      by_cases hs : s = K.store
      · subst hs; rw [set_eq, ← hs']
      · rw [set_ne _ _ hs]
    have hu : ∀ H g d, Uses { w with stores := set w.stores K.store s' } H g d → Uses w H g d := by
      intro H g d hx
      rcases hx with ⟨e, h1, h2⟩ | hx
      · exact Or.inl ⟨e, hm _ _ _ h1, h2⟩
      · exact Or.inr hx
    have ha : ∀ g d, At { w with stores := set w.stores K.store s' } g d → At w g d := by
      intro g d hx
      rcases hx with ⟨s, e, h1, h2⟩ | hx
      · exact Or.inl ⟨s, e, hm _ _ _ h1, h2⟩
      · exact Or.inr hx
    refine ⟨h.store_lt, h.handle_lt, h.pend, fun g d x => h.at_lt g d (ha _ _ x),
      fun g g' d x y => h.owner g g' d (ha _ _ x) (ha _ _ y), h.bytes_lt,
      fun H H' g d l l' x y => h.share H H' g d l l' (hu _ _ _ x) (hu _ _ _ y),
      fun H g d x l u b => h.good H g d x l (hu _ _ _ u) b, h.same, h.byId,
      fun s => by simp only [hp]; exact h.pm s, ?_, h.disk⟩
    intro H g e p l he hpp
    simp only [hp]
    rcases h.safe H g e p l (hm _ _ _ he) hpp with s | ⟨s1, s2, s5⟩
    · exact Or.inl s
    · exact Or.inr ⟨s1, s2, fun H' l' u' => s5 H' l' (hu _ _ _ u')⟩

/-- Fresh entries of a calm revision can be found from their path. -/
theorem edits_safe {r : Revising Path Fid V} {es : List (Edit Path Fid V)}
    (hpm : r.paths.Ok resolve) (hby : ∀ e ∈ es, e.ByIdOnlyPathless resolve)
    (hid : ∀ f p, resolve f = .ok p → get r.am.byId f = none)
    (hs : ∀ f e p, r.managed f = some e → resolve f = .ok p → f ∈ r.paths.paths p) :
    (∀ f p, resolve f = .ok p → get (es.foldl Edit.apply r).am.byId f = none) ∧
    (∀ f e p, (es.foldl Edit.apply r).managed f = some e → resolve f = .ok p →
      f ∈ (es.foldl Edit.apply r).paths.paths p) := by
  induction es generalizing r with
  | nil => exact ⟨hid, hs⟩
  | cons ed es ih =>
    rw [List.foldl_cons]
    have hb := hby ed (List.mem_cons_self ..)
    refine ih (edit_pathsOk hpm ed) (fun e he => hby e (List.mem_cons_of_mem _ he)) ?_ ?_
    · intro f p hp
      rw [edit_am]
      cases ed with
      | mapShadowById g v =>
        have : f ≠ g := by rintro rfl; exact hb p hp
        simp only [Edit.amAfter, get_put, this, if_false]; exact hid f p hp
      | removeShadowById g =>
        have : f ≠ g := by rintro rfl; exact hb p hp
        simp only [Edit.amAfter, get_erase, this, if_false]; exact hid f p hp
      | resetShadow => rfl
      | mapShadow q v => exact hid f p hp
      | unmapShadow q => exact hid f p hp
      | notify a b => exact hid f p hp
      | resetCache => exact hid f p hp
    · intro f e p he hp
      by_cases hne : ed = .resetCache
      · subst hne; cases he
      · have t := (edit_touched r ed hne).2
        have hpp : (ed.apply r).paths = r.paths := t.paths
        rw [hpp]
        by_cases ht : ed.touches r f
        · have viaPath : ∀ q, f ∈ r.paths.paths q → f ∈ r.paths.paths p := by
            intro q hq
            have := hpm.paths f q hq
            rw [this] at hp
            injection hp with hp
            rw [← hp]; exact hq
          cases ed with
          | mapShadow q v => exact viaPath q ht
          | unmapShadow q => exact viaPath q ht
          | mapShadowById g v => have ht : f = g := ht; subst ht; exact absurd hp (hb p)
          | removeShadowById g => have ht : f = g := ht; subst ht; exact absurd hp (hb p)
          | notify a b => obtain ⟨q, -, hq⟩ := ht; exact viaPath q hq
          | resetShadow =>
            rcases ht with ⟨q, -, hq⟩ | ht
            · exact viaPath q hq
            · obtain ⟨x, hx, e⟩ := List.mem_map.mp ht
              have : get r.am.byId f ≠ none := by
                have gen : ∀ (l : List (Fid × V)), f ∈ l.map (·.1) → get l f ≠ none := by
                  intro l
                  induction l with
                  | nil => intro h; cases h
                  | cons y l ih =>
                    intro h
                    obtain ⟨k, v⟩ := y
                    rw [get]
                    by_cases hk : k = f
                    · simp [hk]
                    · rw [if_neg hk]
                      rcases List.mem_cons.mp h with h | h
                      · exact absurd h.symm hk
                      · exact ih h
                exact gen _ ht
              exact absurd (hid f p hp) this
          | resetCache => exact absurd rfl hne
        · have : (ed.apply r).managed f = r.managed f := t.same f ht
          rw [this] at he
          exact hs f e p he hp

theorem edits_unchanged (es : List (Edit Path Fid V)) (r : Revising Path Fid V)
    (h : (es.foldl Edit.apply r).changed = false) :
    (es.foldl Edit.apply r).managed = r.managed ∧ (es.foldl Edit.apply r).paths = r.paths := by
  have mono : ∀ (es : List (Edit Path Fid V)) (r : Revising Path Fid V), r.changed = true →
      (es.foldl Edit.apply r).changed = true := by
    intro es
    induction es with
    | nil => exact fun _ h => h
    | cons e es ih =>
      intro r hr
      apply ih
      by_cases hne : e = .resetCache
      · subst hne; rfl
      · exact (edit_touched r e hne).2.changed hr
  induction es generalizing r with
  | nil => exact ⟨rfl, rfl⟩
  | cons e es ih =>
    obtain ⟨i1, i2⟩ := ih _ h
    have hr1 : (e.apply r).changed = false := by
      cases hx : (e.apply r).changed with
      | false => rfl
      | true =>
        have := mono es _ hx
        rw [List.foldl_cons] at h
        rw [h] at this; cases this
    have hne : e ≠ .resetCache := by rintro rfl; cases hr1
    have t := (edit_touched r e hne).2
    rw [List.foldl_cons, i1, i2]
    exact ⟨funext fun f => t.same f (t.unchanged hr1 f), t.paths⟩

theorem inv_revise {w : World Path Fid V} (h : Inv resolve P w) (k : Nat) (es : List (Edit Path Fid V))
    (hcalm : CalmStep resolve w (.revise k es)) : Inv resolve P (revise w k es) := by
  unfold revise
  cases hk : w.handles k with
  | none => exact h
  | some K =>
    obtain ⟨c1, c2, c3⟩ := hcalm K hk
    have hK : Living w K := ⟨k, hk⟩
    -- every entry of this store can be found from its path
    have hsafe0 : ∀ f e p, (w.stores K.store).managed f = some e → resolve f = .ok p →
        f ∈ (w.stores K.store).paths.paths p := by
      intro f e p he hp
      rcases h.safe K f e p hK he hp with s | ⟨-, ⟨j, J, s2, s3, s4⟩, -⟩
      · exact s
      · exact absurd s3 (c1 _ s4 J s2)
    have hkp : ∀ f c, (k, f, c) ∉ w.pending := fun f c hx => c1 _ hx K hk rfl
    have hent := @edits_entry Path Fid V _ _ resolve (reviseStart w K) es
    have hinj := edits_inj (r := reviseStart w K) (fun f e he => h.at_lt f e.cell (Or.inl ⟨_, e, he, rfl⟩))
      (fun f f' e e' he he' hc => h.owner f f' e.cell (Or.inl ⟨_, e, he, rfl⟩) (Or.inl ⟨_, e', he', hc.symm⟩)) es
    have hpm := edits_pathsOk (r := reviseStart w K) (h.pm K.store) es
    have hnext := edits_next (reviseStart w K) es
    have hsf := edits_safe (resolve := resolve) (r := reviseStart w K) (es := es) (h.pm K.store) c2
      (fun f p hp => h.byId K f p hK hp) hsafe0
    have hun := edits_unchanged es (reviseStart w K)
    change ∀ {f x}, (revising w K es).managed f = some x → _ at hent
    change (∀ f e, (revising w K es).managed f = some e → e.cell < (revising w K es).nextCell) ∧
      (∀ f f' e e', (revising w K es).managed f = some e → (revising w K es).managed f' = some e' →
        e.cell = e'.cell → f = f') at hinj
    change (revising w K es).paths.Ok resolve at hpm
    change w.nextCell ≤ (revising w K es).nextCell at hnext
    change (∀ f p, _ → get (revising w K es).am.byId f = none) ∧
      (∀ f e p, (revising w K es).managed f = some e → _ → f ∈ (revising w K es).paths.paths p) at hsf
    change (revising w K es).changed = false → (revising w K es).managed = (w.stores K.store).managed ∧
      (revising w K es).paths = (w.stores K.store).paths at hun
    have hent : ∀ f x, (revising w K es).managed f = some x →
        (w.nextCell ≤ x.cell) ∨ ((w.stores K.store).managed f = some x ∧
          origin resolve (revising w K es).am f = origin resolve K.am f) := by
      intro f x hx
      rcases hent hx with ⟨e, -, -⟩ | ⟨e1, e2⟩
      · exact Or.inl e
      · exact Or.inr ⟨e1, (e2 (fun p hp => Or.inr (hsafe0 f x p e1 hp))).1⟩
    simp only
    generalize revising w K es = r at *
    by_cases hc : r.changed = true
    · rw [if_pos hc]
      generalize hw' : ({ w with
        stores := set w.stores w.nextStore ⟨r.managed, r.paths⟩
        nextStore := w.nextStore + 1
        nextCell := r.nextCell
        handles := set w.handles k (some ⟨w.nextStore, r.goal, r.am⟩) } : World Path Fid V) = w'
      have hhan : w'.handles = set w.handles k (some ⟨w.nextStore, r.goal, r.am⟩) := by subst hw'; rfl
      have hst : w'.stores = set w.stores w.nextStore ⟨r.managed, r.paths⟩ := by subst hw'; rfl
      have hpe : w'.pending = w.pending := by subst hw'; rfl
      have hby : w'.bytes = w.bytes := by subst hw'; rfl
      have hnx : w'.nextCell = r.nextCell := by subst hw'; rfl
      have hl : ∀ H, Living w' H → Living w H ∨ H = ⟨w.nextStore, r.goal, r.am⟩ := by
        rintro H ⟨j, hj⟩
        rw [hhan] at hj
        simp only [set] at hj
        split at hj
        · injection hj with hj; exact Or.inr hj.symm
        · exact Or.inl ⟨j, hj⟩
      have hold : ∀ j H, j ≠ k → w.handles j = some H → w'.handles j = some H := by
        intro j H hne hj
        rw [hhan, set_ne _ _ hne]; exact hj
      -- a user afterwards: an old one of an old cell, or the new handle
      have hu : ∀ H g d, Living w' H → Uses w' H g d →
          (Living w H ∧ Uses w H g d ∧ H.store ≠ w.nextStore) ∨
          (H = ⟨w.nextStore, r.goal, r.am⟩ ∧ ((w.nextCell ≤ d) ∨
            (Uses w K g d ∧ origin resolve r.am g = origin resolve K.am g))) := by
        intro H g d l hx
        rcases hx with ⟨e, h1, h2⟩ | ⟨j, h1, h2⟩
        · rcases hl H l with l | l
          · have hne : H.store ≠ w.nextStore := by have := h.store_lt H l; omega
            rw [hst, set_ne _ _ hne] at h1
            exact Or.inl ⟨l, Or.inl ⟨e, h1, h2⟩, hne⟩
          · subst l
            rw [hst, set_eq] at h1
            refine Or.inr ⟨rfl, ?_⟩
            rcases hent g e h1 with x | ⟨x1, x2⟩
            · exact Or.inl (h2 ▸ x)
            · exact Or.inr ⟨Or.inl ⟨e, x1, h2⟩, x2⟩
        · rw [hpe] at h2
          obtain ⟨J, hJ⟩ := h.pend _ h2
          have hne : j ≠ k := by rintro rfl; exact hkp _ _ h2
          rw [hold j J hne hJ] at h1
          injection h1 with h1
          subst h1
          exact Or.inl ⟨⟨j, hJ⟩, Or.inr ⟨j, hJ, h2⟩, by have := h.store_lt J ⟨j, hJ⟩; omega⟩
      have ha : ∀ g d, At w' g d → At w g d ∨
          (w.nextCell ≤ d ∧ ∃ e, r.managed g = some e ∧ e.cell = d) := by
        intro g d hx
        rcases hx with ⟨s, e, h1, h2⟩ | ⟨j, h2⟩
        · rw [hst] at h1
          by_cases hs : s = w.nextStore
          · subst hs
            rw [set_eq] at h1
            rcases hent g e h1 with x | ⟨x1, x2⟩
            · exact Or.inr ⟨h2 ▸ x, e, h1, h2⟩
            · exact Or.inl (Or.inl ⟨_, e, x1, h2⟩)
          · rw [set_ne _ _ hs] at h1
            exact Or.inl (Or.inl ⟨s, e, h1, h2⟩)
        · rw [hpe] at h2; exact Or.inl (Or.inr ⟨j, h2⟩)
      refine ⟨?_, ?_, ?_, ?_, ?_, ?_, ?_, ?_, ?_, ?_, ?_, ?_, ?_⟩
      · intro H l
        have : w'.nextStore = w.nextStore + 1 := by subst hw'; rfl
        rw [this]
        rcases hl H l with l | l
        · exact Nat.lt_succ_of_lt (h.store_lt H l)
        · subst l; exact Nat.lt_succ_self _
      · intro j H hj
        have : w'.nextHandle = w.nextHandle := by subst hw'; rfl
        rw [this]
        rw [hhan] at hj
        simp only [set] at hj
        split at hj
        · rename_i e; subst e; exact h.handle_lt _ _ hk
        · exact h.handle_lt j H hj
      · intro x hx
        rw [hpe] at hx
        obtain ⟨J, hJ⟩ := h.pend x hx
        refine ⟨J, hold _ _ ?_ hJ⟩
        intro e
        exact c1 x hx J hJ (by rw [e, hk] at hJ; injection hJ with hJ; rw [hJ])
      · intro g d x
        rw [hnx]
        rcases ha g d x with x | ⟨-, e, x1, x2⟩
        · exact Nat.lt_of_lt_of_le (h.at_lt g d x) hnext
        · rw [← x2]; exact hinj.1 g e x1
      · intro g g' d x y
        rcases ha g d x with x | ⟨x0, e, x1, x2⟩ <;> rcases ha g' d y with y | ⟨y0, e', y1, y2⟩
        · exact h.owner g g' d x y
        · have := h.at_lt g d x; omega
        · have := h.at_lt g' d y; omega
        · exact hinj.2 g g' e e' x1 y1 (x2.trans y2.symm)
      · intro c x hx
        rw [hby] at hx; rw [hnx]; exact Nat.lt_of_lt_of_le (h.bytes_lt c x hx) hnext
      · intro H H' g d l0 l0' x0 y0
        rcases hu H g d l0 x0 with ⟨l, x, -⟩ | ⟨e, x⟩ <;> rcases hu H' g d l0' y0 with ⟨l', y, -⟩ | ⟨e', y⟩
        · exact h.share H H' g d l l' x y
        · subst e'
          rcases y with y | ⟨y1, y2⟩
          · have := h.at_lt g d x.at; omega
          · show _ = origin resolve r.am g
            rw [y2]; exact h.share H K g d l hK x y1
        · subst e
          rcases x with x | ⟨x1, x2⟩
          · have := h.at_lt g d y.at; omega
          · show origin resolve r.am g = _
            rw [x2]; exact h.share K H' g d hK l' x1 y
        · rw [e, e']
      · intro H g d x l0 u0 b
        rw [hby] at b
        rcases hu H g d l0 u0 with ⟨l, u, -⟩ | ⟨e, u⟩
        · exact h.good H g d x l u b
        · subst e
          rcases u with u | ⟨u1, u2⟩
          · have := h.bytes_lt d x b; omega
          · show (origin resolve r.am g).Gives P x.val
            rw [u2]; exact h.good K g d x hK u1 b
      · intro H H' l l' hs
        rcases hl H l with l | l <;> rcases hl H' l' with l' | l'
        · exact h.same H H' l l' hs
        · have := h.store_lt H l; rw [hs, l'] at this; simp at this
        · have := h.store_lt H' l'; rw [← hs, l] at this; simp at this
        · rw [l, l']; exact fun _ => rfl
      · intro H g p l hp
        rcases hl H l with l | l
        · exact h.byId H g p l hp
        · subst l; exact hsf.1 g p hp
      · intro s
        rw [hst]
        simp only [set]
        split
        · exact hpm
        · exact h.pm s
      · intro H g e p l he hp
        rcases hl H l with l | l
        · have hne : H.store ≠ w.nextStore := by have := h.store_lt H l; omega
          rw [hst, set_ne _ _ hne] at he ⊢
          rcases h.safe H g e p l he hp with s | ⟨s1, ⟨j, J, s2, s3, s4⟩, s5⟩
          · exact Or.inl s
          · have hne' : j ≠ k := by rintro rfl; exact hkp _ _ s4
            refine Or.inr ⟨by rw [hby]; exact s1, ⟨j, J, hold _ _ hne' s2, s3, by rw [hpe]; exact s4⟩,
              fun H' l' u' => ?_⟩
            rcases hu H' g _ l' u' with ⟨l', u', -⟩ | ⟨e', u'⟩
            · exact s5 H' l' u'
            · rcases u' with u' | ⟨u1, u2⟩
              · have := h.at_lt g e.cell (Or.inl ⟨_, e, he, rfl⟩)
                omega
              · have := s5 K hK u1
                exact absurd (s3.trans this.symm) (c1 _ s4 J s2)
        · subst l
          rw [hst, set_eq] at he ⊢
          exact Or.inl (hsf.2 g e p he hp)
      · have : w'.disk = w.disk := by subst hw'; rfl
        rw [this]; exact h.disk
    · rw [if_neg hc]
      have hcf : r.changed = false := by simpa using hc
      obtain ⟨k1, k2⟩ := hun hcf
      have alone := c3.resolve_left hc
      rw [k1] at hent
      -- the layers changed only for files without entry
      have horig : ∀ f e, (w.stores K.store).managed f = some e →
          origin resolve r.am f = origin resolve K.am f := by
        intro f e he
        rcases hent f e he with x | ⟨-, x⟩
        · have := h.at_lt f e.cell (Or.inl ⟨_, e, he, rfl⟩); omega
        · exact x
      generalize hw' : ({ w with handles := set w.handles k (some { K with am := r.am }) } : World Path Fid V) = w'
      have hhan : w'.handles = set w.handles k (some { K with am := r.am }) := by subst hw'; rfl
      have hst : w'.stores = w.stores := by subst hw'; rfl
      have hpe : w'.pending = w.pending := by subst hw'; rfl
      have hby : w'.bytes = w.bytes := by subst hw'; rfl
      have hold : ∀ j H, j ≠ k → w.handles j = some H → w'.handles j = some H := by
        intro j H hne hj
        rw [hhan, set_ne _ _ hne]; exact hj
      have hl : ∀ H, Living w' H → (Living w H ∧ H.store ≠ K.store) ∨ H = { K with am := r.am } := by
        rintro H ⟨j, hj⟩
        rw [hhan] at hj
        simp only [set] at hj
        split at hj
        · injection hj with hj; exact Or.inr hj.symm
        · rename_i hne; exact Or.inl ⟨⟨j, hj⟩, alone j H hne hj⟩
      have hu : ∀ H g d, Living w' H → Uses w' H g d →
          (Living w H ∧ Uses w H g d) ∨
          (H = { K with am := r.am } ∧ Uses w K g d ∧ origin resolve r.am g = origin resolve K.am g) := by
        intro H g d l hx
        rcases hx with ⟨e, h1, h2⟩ | ⟨j, h1, h2⟩
        · rw [hst] at h1
          rcases hl H l with ⟨l, -⟩ | l
          · exact Or.inl ⟨l, Or.inl ⟨e, h1, h2⟩⟩
          · subst l
            exact Or.inr ⟨rfl, Or.inl ⟨e, h1, h2⟩, horig g e h1⟩
        · rw [hpe] at h2
          obtain ⟨J, hJ⟩ := h.pend _ h2
          have hne : j ≠ k := by rintro rfl; exact hkp _ _ h2
          rw [hold j J hne hJ] at h1
          injection h1 with h1
          subst h1
          exact Or.inl ⟨⟨j, hJ⟩, Or.inr ⟨j, hJ, h2⟩⟩
      have ha : ∀ g d, At w' g d → At w g d := by
        intro g d hx; unfold At at hx ⊢; rw [hst, hpe] at hx; exact hx
      refine ⟨?_, ?_, ?_, ?_, ?_, ?_, ?_, ?_, ?_, ?_, ?_, ?_, ?_⟩
      · intro H l
        have : w'.nextStore = w.nextStore := by subst hw'; rfl
        rw [this]
        rcases hl H l with ⟨l, -⟩ | l
        · exact h.store_lt H l
        · subst l; exact h.store_lt K hK
      · intro j H hj
        have : w'.nextHandle = w.nextHandle := by subst hw'; rfl
        rw [this]
        rw [hhan] at hj
        simp only [set] at hj
        split at hj
        · rename_i e; subst e; exact h.handle_lt _ _ hk
        · exact h.handle_lt j H hj
      · intro x hx
        rw [hpe] at hx
        obtain ⟨J, hJ⟩ := h.pend x hx
        refine ⟨J, hold _ _ ?_ hJ⟩
        intro e
        exact c1 x hx J hJ (by rw [e, hk] at hJ; injection hJ with hJ; rw [hJ])
      · intro g d x
        have : w'.nextCell = w.nextCell := by subst hw'; rfl
        rw [this]; exact h.at_lt g d (ha _ _ x)
      · intro g g' d x y; exact h.owner g g' d (ha _ _ x) (ha _ _ y)
      · intro c x hx
        have : w'.nextCell = w.nextCell := by subst hw'; rfl
        rw [hby] at hx; rw [this]; exact h.bytes_lt c x hx
      · intro H H' g d l0 l0' x0 y0
        rcases hu H g d l0 x0 with ⟨l, x⟩ | ⟨e, x1, x2⟩ <;> rcases hu H' g d l0' y0 with ⟨l', y⟩ | ⟨e', y1, y2⟩
        · exact h.share H H' g d l l' x y
        · subst e'
          show _ = origin resolve r.am g
          rw [y2]; exact h.share H K g d l hK x y1
        · subst e
          show origin resolve r.am g = _
          rw [x2]; exact h.share K H' g d hK l' x1 y
        · rw [e, e']
      · intro H g d x l0 u0 b
        rw [hby] at b
        rcases hu H g d l0 u0 with ⟨l, u⟩ | ⟨e, u1, u2⟩
        · exact h.good H g d x l u b
        · subst e
          show (origin resolve r.am g).Gives P x.val
          rw [u2]; exact h.good K g d x hK u1 b
      · intro H H' l l' hs
        rcases hl H l with ⟨l, n⟩ | l <;> rcases hl H' l' with ⟨l', n'⟩ | l'
        · exact h.same H H' l l' hs
        · rw [hs, l'] at n; exact absurd rfl n
        · rw [← hs, l] at n'; exact absurd rfl n'
        · rw [l, l']; exact fun _ => rfl
      · intro H g p l hp
        rcases hl H l with ⟨l, -⟩ | l
        · exact h.byId H g p l hp
        · subst l; exact hsf.1 g p hp
      · intro s; rw [hst]; exact h.pm s
      · intro H g e p l he hp
        rw [hst] at he ⊢
        rcases hl H l with ⟨l, n⟩ | l
        · rcases h.safe H g e p l he hp with s | ⟨s1, ⟨j, J, s2, s3, s4⟩, s5⟩
          · exact Or.inl s
          · have hne' : j ≠ k := by rintro rfl; exact hkp _ _ s4
            refine Or.inr ⟨by rw [hby]; exact s1, ⟨j, J, hold _ _ hne' s2, s3, by rw [hpe]; exact s4⟩,
              fun H' l' u' => ?_⟩
            rcases hu H' g _ l' u' with ⟨l', u'⟩ | ⟨e', u1, u2⟩
            · exact s5 H' l' u'
            · have := s5 K hK u1
              exact absurd this.symm n
        · subst l
          exact Or.inl (hsafe0 g e p he hp)
      · have : w'.disk = w.disk := by subst hw'; rfl
        rw [this]; exact h.disk

theorem inv_step {w : World Path Fid V} (h : Inv resolve P w) (op : Op Path Fid V) (hc : CalmStep resolve w op)
    (hd : op.Writes P) : Inv resolve P (step resolve w op) := by
  cases op with
  | snapshot k => exact inv_snapshot h k
  | fork k => exact inv_fork h k
  | revise k es => exact inv_revise h k es hc
  | beginRead k f => exact inv_begin h k f
  | finishRead i => exact inv_finish h i
  | read k f => exact inv_read h k f
  | evict k t => exact inv_evict h k t
  | disk p v =>
    refine ⟨h.store_lt, h.handle_lt, h.pend, h.at_lt, h.owner, h.bytes_lt, h.share, h.good, h.same, h.byId, h.pm,
      h.safe, ?_⟩
    intro q
    simp only [step, set]
    split
    · rename_i e; subst e; exact hd
    · exact h.disk q

theorem inv_run {w : World Path Fid V} (h : Inv resolve P w) (ops : List (Op Path Fid V)) (hc : Calm resolve w ops)
    (hd : ∀ op ∈ ops, op.Writes P) : Inv resolve P (run resolve w ops) := by
  induction ops generalizing w with
  | nil => exact h
  | cons op ops ih =>
    exact ih (inv_step h op hc.1 (hd op (List.mem_cons_self ..))) hc.2
      fun o ho => hd o (List.mem_cons_of_mem _ ho)

/-- In such a world every read returns what the reader's own layers say. -/
theorem inv_readResult {w : World Path Fid V} (h : Inv resolve P w) {k : Nat} {K : Handle Path Fid V}
    (hk : w.handles k = some K) (f : Fid) :
    ∃ v, readResult resolve w k f = some v ∧ (origin resolve K.am f).Gives P v := by
  have hr := inv_read h k f
  unfold readResult cached
  have hkr : (read resolve w k f).handles k = some K := by
    unfold read
    rw [hk]
    simp only
    obtain ⟨e, he, -⟩ := slot_managed w K.store f
    simp only [he]
    rw [(fill_rest ..).1]
    rw [← hk]; unfold slot; split <;> rfl
  rw [hkr]
  have hl : Living (read resolve w k f) K := ⟨k, hkr⟩
  unfold read at hr hl ⊢
  rw [hk] at hr hl ⊢
  simp only at hr hl ⊢
  obtain ⟨e, he, -⟩ := slot_managed w K.store f
  simp only [he] at hr hl ⊢
  have hm := fill_managed (resolve := resolve) (slot w K.store f) K f e.cell K.store
  obtain ⟨b1, b2, b3⟩ := fill_bytes (resolve := resolve) (slot w K.store f) K f e.cell
  simp only [Option.bind_eq_bind, Option.bind_some, hm, he]
  cases hb : (slot w K.store f).bytes e.cell with
  | some y =>
    have := b2 y hb
    rw [this]
    exact ⟨y.val, rfl, hr.good K f e.cell y hl (Or.inl ⟨e, by rw [hm]; exact he, rfl⟩) this⟩
  | none =>
    have := b3 hb
    rw [this]
    exact ⟨_, rfl, hr.good K f e.cell _ hl (Or.inl ⟨e, by rw [hm]; exact he, rfl⟩) this⟩

end Tinymist.Vfs
