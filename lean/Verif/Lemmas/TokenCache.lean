import Verif.Model.TokenCache
namespace Tinymist.TokenCache

/-! ### Lock counts -/

def lockN (l : List (Nat × Nat)) (e : Nat) : Nat := (l.lookup e).getD 0

def LockWF (l : List (Nat × Nat)) : Prop := (l.map (·.1)).Nodup ∧ ∀ p ∈ l, 0 < p.2

theorem lockN_cons (k n : Nat) (l : List (Nat × Nat)) (e : Nat) :
    lockN ((k, n) :: l) e = if e = k then n else lockN l e := by
  unfold lockN
  rw [List.lookup_cons]
  by_cases h : e = k
  · subst h; simp
  · have : (e == k) = false := by simpa using h
    simp [this, h]

theorem incrLock_keys (l : List (Nat × Nat)) (e x : Nat) :
    x ∈ (incrLock l e).map (·.1) ↔ x = e ∨ x ∈ l.map (·.1) := by
  induction l with
  | nil => simp [incrLock]
  | cons a l ih =>
    obtain ⟨k, n⟩ := a
    unfold incrLock
    split
    · rename_i h; simp [h]
    · simp only [List.map_cons, List.mem_cons, ih]; grind

theorem incrLock_wf (l : List (Nat × Nat)) (e : Nat) (h : LockWF l) : LockWF (incrLock l e) := by
  induction l with
  | nil => simp [incrLock, LockWF]
  | cons a l ih =>
    obtain ⟨k, n⟩ := a
    unfold LockWF at h
    simp only [List.map_cons, List.nodup_cons, List.mem_cons, forall_eq_or_imp] at h
    unfold incrLock
    split
    · rename_i hk
      unfold LockWF
      simp only [List.map_cons, List.nodup_cons, List.mem_cons, forall_eq_or_imp]
      exact ⟨h.1, by omega, h.2.2⟩
    · rename_i hk
      have ih' := ih ⟨h.1.2, h.2.2⟩
      unfold LockWF at ih' ⊢
      simp only [List.map_cons, List.nodup_cons, List.mem_cons, forall_eq_or_imp]
      refine ⟨⟨?_, ih'.1⟩, h.2.1, ih'.2⟩
      rw [incrLock_keys]; simp [hk, h.1.1]

theorem incrLock_count (l : List (Nat × Nat)) (e x : Nat) :
    lockN (incrLock l e) x = lockN l x + if x = e then 1 else 0 := by
  induction l with
  | nil => simp only [incrLock, lockN_cons]; simp [lockN]
  | cons a l ih =>
    obtain ⟨k, n⟩ := a
    unfold incrLock
    split
    · rename_i hk; subst hk; simp only [lockN_cons]; split <;> simp
    · rename_i hk
      simp only [lockN_cons, ih]
      split
      · rename_i hx; subst hx; simp [hk]
      · rfl

theorem lockN_notin (l : List (Nat × Nat)) (e : Nat) (h : e ∉ l.map (·.1)) : lockN l e = 0 := by
  induction l with
  | nil => rfl
  | cons a l ih =>
    obtain ⟨k, n⟩ := a
    simp only [List.map_cons, List.mem_cons, not_or] at h
    rw [lockN_cons, if_neg h.1, ih h.2]

theorem decrLock_spec (l : List (Nat × Nat)) (e : Nat) (hwf : LockWF l) (h : 0 < lockN l e) :
    ∃ r b, decrLock l e = some (r, b) ∧ LockWF r ∧
      (∀ x, lockN r x = lockN l x - if x = e then 1 else 0) ∧ (∀ x ∈ r.map (·.1), x ∈ l.map (·.1)) := by
  induction l with
  | nil => simp [lockN] at h
  | cons a l ih =>
    obtain ⟨k, n⟩ := a
    have hwf' := hwf
    unfold LockWF at hwf
    simp only [List.map_cons, List.nodup_cons, List.mem_cons, forall_eq_or_imp] at hwf
    obtain ⟨⟨hk1, hk2⟩, hn, hl⟩ := hwf
    unfold decrLock
    by_cases hke : k = e
    · subst hke
      rw [if_pos rfl]
      by_cases hn1 : n - 1 ≠ 0
      · rw [if_pos hn1]
        refine ⟨_, _, rfl, ?_, ?_, ?_⟩
        · unfold LockWF
          simp only [List.map_cons, List.nodup_cons, List.mem_cons, forall_eq_or_imp]
          exact ⟨⟨hk1, hk2⟩, by omega, hl⟩
        · intro x; simp only [lockN_cons]; split <;> simp
        · simp
      · rw [if_neg hn1]
        refine ⟨_, _, rfl, ⟨hk2, hl⟩, ?_, ?_⟩
        · intro x
          simp only [lockN_cons]
          split
          · rename_i hx; subst hx; rw [lockN_notin _ _ hk1]; omega
          · simp
        · simp; grind
    · rw [if_neg hke]
      have : 0 < lockN l e := by
        rw [lockN_cons, if_neg (fun h => hke h.symm)] at h; exact h
      obtain ⟨r, b, h1, h2, h3, h4⟩ := ih ⟨hk2, hl⟩ this
      rw [h1]
      refine ⟨_, _, rfl, ?_, ?_, ?_⟩
      · unfold LockWF at h2 ⊢
        simp only [List.map_cons, List.nodup_cons, List.mem_cons, forall_eq_or_imp]
        exact ⟨⟨fun hc => hk1 (h4 _ hc), h2.1⟩, hn, h2.2⟩
      · intro x
        simp only [lockN_cons, h3]
        split
        · rename_i hx; subst hx; simp [hke]
        · rfl
      · intro x hx
        simp only [List.map_cons, List.mem_cons] at hx ⊢
        rcases hx with hx | hx
        · exact Or.inl hx
        · exact Or.inr (h4 _ hx)

/-! ### Slots -/

theorem foldl_slotBase_mem (l : List (Nat × Nat)) (acc : Option (Nat × Nat)) (s : Nat × Nat)
    (h : l.foldl (fun acc y => match acc with
      | none => some y
      | some x => some (if x.1 > y.1 then x else y)) acc = some s) : s ∈ l ∨ acc = some s := by
  induction l generalizing acc with
  | nil => right; simpa using h
  | cons a l ih =>
    simp only [List.foldl_cons] at h
    rcases ih _ h with h1 | h1
    · left; simp [h1]
    · cases acc with
      | none => left; simp at h1; simp [h1]
      | some x =>
        simp only [Option.some.injEq] at h1
        split at h1
        · right; rw [h1]
        · left; simp [h1]

theorem slotBase_mem {l : List (Nat × Nat)} {rev : Nat} {s : Nat × Nat} (h : slotBase l rev = some s) :
    s ∈ l := by
  rcases foldl_slotBase_mem _ _ _ h with h1 | h1
  · exact (List.mem_filter.mp h1).1
  · simp at h1

/-! ### Context list -/

theorem lookup_mem {l : List (Nat × Ctx)} {h : Nat} {c : Ctx} (hl : l.lookup h = some c) : (h, c) ∈ l := by
  induction l with
  | nil => simp at hl
  | cons a l ih =>
    obtain ⟨k, d⟩ := a
    rw [List.lookup_cons] at hl
    by_cases hk : h = k
    · subst hk; simp at hl; simp [hl]
    · have : (h == k) = false := by simpa using hk
      simp [this] at hl; simp [ih hl]

/-- number of live contexts for path `p` holding a lock on estimated revision `e` -/
def holders (ctxs : List (Nat × Ctx)) (p : Path) (e : Nat) : Nat :=
  ctxs.countP fun x => decide (x.2.path = p) && decide (x.2.estimated = e)

theorem holders_mark (ctxs : List (Nat × Ctx)) (h : Nat) (p : Path) (e : Nat) :
    holders (markResponded ctxs h) p e = holders ctxs p e := by
  unfold holders markResponded
  rw [List.countP_map]
  congr 1
  funext x
  simp only [Function.comp]
  split <;> rfl

theorem holders_pos {ctxs : List (Nat × Ctx)} {h : Nat} {c : Ctx} (hm : (h, c) ∈ ctxs) :
    0 < holders ctxs c.path c.estimated := by
  unfold holders
  rw [List.countP_pos_iff]
  exact ⟨_, hm, by simp⟩

theorem filter_notin (ctxs : List (Nat × Ctx)) (h : Nat) (hn : h ∉ ctxs.map (·.1)) :
    ctxs.filter (fun p => p.1 ≠ h) = ctxs := by
  rw [List.filter_eq_self]
  intro a ha
  simp only [ne_eq, decide_not, Bool.not_eq_eq_eq_not, Bool.not_true, decide_eq_false_iff_not]
  intro hc
  exact hn (hc ▸ List.mem_map_of_mem ha)

theorem holders_filter (ctxs : List (Nat × Ctx)) (h : Nat) (c : Ctx) (hnd : (ctxs.map (·.1)).Nodup)
    (hm : (h, c) ∈ ctxs) (p : Path) (e : Nat) :
    holders (ctxs.filter (fun p => p.1 ≠ h)) p e =
      holders ctxs p e - if p = c.path ∧ e = c.estimated then 1 else 0 := by
  induction ctxs with
  | nil => simp at hm
  | cons a l ih =>
    obtain ⟨k, d⟩ := a
    simp only [List.map_cons, List.nodup_cons] at hnd
    simp only [List.mem_cons, Prod.mk.injEq] at hm
    by_cases hk : k = h
    · subst hk
      have hd : c = d := by
        rcases hm with hm | hm
        · exact hm.2
        · exact absurd (List.mem_map_of_mem (f := (·.1)) hm) hnd.1
      subst hd
      rw [List.filter_cons_of_neg (by simp), filter_notin _ _ hnd.1]
      unfold holders
      rw [List.countP_cons]
      by_cases hpe : p = c.path ∧ e = c.estimated
      · obtain ⟨h1, h2⟩ := hpe
        subst h1 h2
        simp
      · rw [if_neg hpe, if_neg]
        · omega
        · simp only [Bool.and_eq_true, decide_eq_true_eq]; grind
    · have hm' : (h, c) ∈ l := by
        rcases hm with hm | hm
        · exact absurd hm.1.symm hk
        · exact hm
      rw [List.filter_cons_of_pos (by simp [hk])]
      have := ih hnd.2 hm'
      unfold holders at *
      simp only [List.countP_cons]
      rw [this]
      have hpos : p = c.path ∧ e = c.estimated →
          0 < List.countP (fun x : Nat × Ctx => decide (x.2.path = p) && decide (x.2.estimated = e)) l := by
        rintro ⟨rfl, rfl⟩
        exact holders_pos hm'
      split
      · rename_i hpe; have := hpos hpe; split <;> omega
      · omega

theorem mark_mem {ctxs : List (Nat × Ctx)} {h k : Nat} {d : Ctx} (hm : (k, d) ∈ markResponded ctxs h) :
    ∃ c, (k, c) ∈ ctxs ∧ d = if k = h then { c with responded := true } else c := by
  unfold markResponded at hm
  rw [List.mem_map] at hm
  obtain ⟨⟨k', c⟩, hc, he⟩ := hm
  by_cases hk : k' = h
  · simp only [hk, if_true, Prod.mk.injEq] at he
    refine ⟨c, ?_, ?_⟩
    · rw [← he.1, ← hk]; exact hc
    · rw [if_pos he.1.symm, he.2]
  · simp only [hk, if_false, Prod.mk.injEq] at he
    refine ⟨c, ?_, ?_⟩
    · rw [← he.1]; exact hc
    · rw [if_neg (he.1 ▸ hk), he.2]

theorem mark_keys (ctxs : List (Nat × Ctx)) (h : Nat) :
    (markResponded ctxs h).map (·.1) = ctxs.map (·.1) := by
  unfold markResponded
  rw [List.map_map]
  congr 1
  funext x
  simp only [Function.comp]
  split <;> rfl

theorem mark_revs (ctxs : List (Nat × Ctx)) (h : Nat) :
    (markResponded ctxs h).map (·.2.nextRev) = ctxs.map (·.2.nextRev) := by
  unfold markResponded
  rw [List.map_map]
  congr 1
  funext x
  simp only [Function.comp]
  split <;> rfl

theorem nodup_map_inj {α β : Type} {l : List α} {f : α → β} (h : (l.map f).Nodup) {x y : α}
    (hx : x ∈ l) (hy : y ∈ l) (he : f x = f y) : x = y := by
  induction l with
  | nil => simp at hx
  | cons a l ih =>
    simp only [List.map_cons, List.nodup_cons] at h
    simp only [List.mem_cons] at hx hy
    rcases hx with rfl | hx <;> rcases hy with rfl | hy
    · rfl
    · exact absurd (he ▸ List.mem_map_of_mem hy) h.1
    · exact absurd (he ▸ List.mem_map_of_mem hx) h.1
    · exact ih h.2 hx hy

end Tinymist.TokenCache
