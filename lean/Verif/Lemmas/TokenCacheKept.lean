import Verif.Lemmas.TokenCacheInv

/-!
# Which results the cache of semantic tokens keeps
-/

namespace Tinymist.TokenCache

open Tinymist.TokenDelta Spec

/-! ## Looking up a revision -/

/-- The step of `slotBase`. -/
def pick (acc : Option (Nat × Nat)) (y : Nat × Nat) : Option (Nat × Nat) :=
  match acc with
  | none => some y
  | some x => some (if x.1 > y.1 then x else y)

theorem slotBase_eq (slots : List (Nat × Nat)) (rev : Nat) :
    slotBase slots rev = (slots.filter (fun s => s.1 ≤ rev)).foldl pick none := rfl

theorem foldl_pick (l : List (Nat × Nat)) (x : Nat × Nat) :
    ∃ y, l.foldl pick (some x) = some y ∧ (y ∈ l ∨ y = x) ∧ x.1 ≤ y.1 ∧ ∀ z ∈ l, z.1 ≤ y.1 := by
  induction l generalizing x with
  | nil => exact ⟨x, rfl, .inr rfl, Nat.le_refl _, by simp⟩
  | cons a l ih =>
    obtain ⟨y, h1, h2, h3, h4⟩ := ih (if x.1 > a.1 then x else a)
    refine ⟨y, h1, ?_, ?_, ?_⟩
    · rcases h2 with h2 | h2
      · exact .inl (List.mem_cons_of_mem _ h2)
      · split at h2
        · exact .inr h2
        · rw [h2]; exact .inl List.mem_cons_self
    · split at h3 <;> omega
    · intro z hz
      rcases List.mem_cons.mp hz with rfl | hz
      · split at h3 <;> omega
      · exact h4 z hz

theorem slotBase_found {slots : List (Nat × Nat)} (hn : (slots.map (·.1)).Nodup) {rev ref : Nat}
    (h : (rev, ref) ∈ slots) : slotBase slots rev = some (rev, ref) := by
  rw [slotBase_eq]
  have hin : (rev, ref) ∈ slots.filter (fun s => s.1 ≤ rev) := List.mem_filter.mpr ⟨h, by simp⟩
  generalize hl : slots.filter (fun s => s.1 ≤ rev) = l at hin ⊢
  cases l with
  | nil => cases hin
  | cons a l =>
    obtain ⟨y, h1, h2, h3, h4⟩ := foldl_pick l a
    change l.foldl pick (some a) = _
    rw [h1]
    have hy : y ∈ slots.filter (fun s => s.1 ≤ rev) := by
      rw [hl]
      rcases h2 with h2 | h2
      · exact List.mem_cons_of_mem _ h2
      · rw [h2]; exact List.mem_cons_self
    have hle : y.1 ≤ rev := by simpa using (List.mem_filter.mp hy).2
    have hge : rev ≤ y.1 := by
      rcases List.mem_cons.mp hin with e | e
      · rw [← e] at h3; exact h3
      · exact h4 _ e
    rw [nodup_map_inj hn (List.mem_filter.mp hy).1 h (show y.1 = rev by omega)]

theorem findRevision_slots (p : Path) (m : Manager) (heap : Nat → Option Slot) (nr rev : Nat)
    (hn : (m.slots.map (·.1)).Nodup) (ht : ∀ x ∈ m.slots, x.1 ≤ m.estimated)
    {m' heap' nr' ref} (h : findRevision p m heap nr rev = (m', heap', nr', ref)) :
    m'.estimated = max rev m.estimated ∧ (m'.slots.map (·.1)).Nodup ∧ (rev, ref) ∈ m'.slots ∧
      (∀ x ∈ m.slots, x ∈ m'.slots) ∧ (∀ x ∈ m'.slots, x ∈ m.slots ∨ x.1 = rev) := by
  by_cases hin : ∃ r0, (rev, r0) ∈ m.slots
  · obtain ⟨r0, hin⟩ := hin
    unfold findRevision at h
    simp only [slotBase_found hn hin, if_true, Prod.mk.injEq] at h
    obtain ⟨rfl, rfl, rfl, rfl⟩ := h
    have := ht _ hin
    exact ⟨by simp only [] at this; omega, hn, hin, fun x h => h, fun x h => .inl h⟩
  · have hfresh : ∀ {q : Manager × (Nat → Option Slot) × Nat × Nat},
        ({ m with slots := m.slots ++ [(rev, nr)], estimated := max rev m.estimated },
          setHeap heap nr { path := p, revision := rev, data := none }, nr + 1, nr) = q →
        q.1.estimated = max rev m.estimated ∧ (q.1.slots.map (·.1)).Nodup ∧ (rev, q.2.2.2) ∈ q.1.slots ∧
        (∀ x ∈ m.slots, x ∈ q.1.slots) ∧ (∀ x ∈ q.1.slots, x ∈ m.slots ∨ x.1 = rev) := by
      rintro q rfl
      refine ⟨rfl, ?_, by simp, by intro x hx; simp [hx], ?_⟩
      · rw [List.map_append, List.nodup_append]
        refine ⟨hn, by simp, ?_⟩
        intro a ha b hb e
        obtain ⟨x, hx, rfl⟩ := List.mem_map.mp ha
        simp only [List.map_cons, List.map_nil, List.mem_singleton] at hb
        exact hin ⟨x.2, by rw [← hb, ← e]; exact hx⟩
      · intro x hx
        simp only [List.mem_append, List.mem_singleton] at hx
        rcases hx with hx | hx
        · exact .inl hx
        · exact .inr (by rw [hx])
    unfold findRevision at h
    simp only [] at h
    split at h
    · rename_i s hs
      split at h
      · rename_i he
        exact absurd ⟨s.2, by rw [← he]; exact slotBase_mem hs⟩ hin
      · exact hfresh h
    · exact hfresh h

/-! ## The invariant -/

structure Kept (ops : List Op) (s : State) (log : Log) : Prop where
  ids : s.nextId = (asked ops).length
  handles : s.nextCtx = (asked ops).length
  askedEst : ∀ j p, (asked ops)[j]? = some p → ∃ m, s.managers p = some m ∧ j + 1 ≤ m.estimated
  estAsked : ∀ p m, s.managers p = some m → ∃ j, j + 1 = m.estimated ∧ (asked ops)[j]? = some p
  nodup : ∀ p m, s.managers p = some m → (m.slots.map (·.1)).Nodup
  top : ∀ p m, s.managers p = some m → ∀ x ∈ m.slots, x.1 ≤ m.estimated
  tip : ∀ p m, s.managers p = some m → ∃ ref, (m.estimated, ref) ∈ m.slots
  logAsked : ∀ e ∈ log, ∃ j, j + 1 = e.2.id ∧ (asked ops)[j]? = some e.2.path
  ctxAsked : ∀ x ∈ s.ctxs, x.1 + 1 = x.2.nextRev ∧ (asked ops)[x.1]? = some x.2.path
  ctxEst : ∀ x ∈ s.ctxs, x.2.estimated ≤ x.1
  ctxKeep : ∀ x ∈ s.ctxs, ∀ m, s.managers x.2.path = some m → (x.2.nextRev, x.2.nextRef) ∈ m.slots
  logKeep : ∀ e ∈ log, ∀ m, s.managers e.2.path = some m →
    (e.2.id = m.estimated ∨ ∃ x ∈ s.ctxs, x.2.path = e.2.path ∧ x.2.estimated ≤ e.2.id) →
    ∃ ref sl, (e.2.id, ref) ∈ m.slots ∧ s.heap ref = some sl ∧ sl.data = some e.1
  free : ∀ p m, s.managers p = some m → (∀ x ∈ s.ctxs, x.2.path ≠ p) → ∀ x ∈ m.slots, x.1 = m.estimated
  live : ∀ k, k < s.nextCtx → Op.release k ∉ ops → ∃ c, (k, c) ∈ s.ctxs

theorem kept_init : Kept [] init [] := by
  constructor <;> simp [init, asked]

theorem asked_append (a b : List Op) : asked (a ++ b) = asked a ++ asked b := List.filterMap_append

/-- A new context. -/
theorem kept_add {ops : List Op} {s : State} {log : Log} (hi : Inv s log) (hk : Kept ops s log) (path : Path) (q : Option Nat)
    {m3 : Manager} {h3 : Nat → Option Slot} {r3 : Nat} {c : Ctx}
    (hkeep : ∀ r sl, s.heap r = some sl → h3 r = some sl)
    (hest : m3.estimated = s.nextId + 1) (hnd : (m3.slots.map (·.1)).Nodup) (htip : (s.nextId + 1, c.nextRef) ∈ m3.slots)
    (hold : ∀ m, s.managers path = some m → ∀ x ∈ m.slots, x ∈ m3.slots)
    (htop : ∀ x ∈ m3.slots, x.1 ≤ s.nextId + 1)
    (hcp : c.path = path) (hcr : c.nextRev = s.nextId + 1)
    (hce : c.estimated = ((s.managers path).getD Manager.empty).estimated) :
    Kept (ops ++ [.acquire path q])
      ⟨s.nextId + 1, set s.managers path (some m3), h3, r3, s.ctxs ++ [(s.nextCtx, c)], s.nextCtx + 1⟩ log := by
  have ea : asked (ops ++ [.acquire path q]) = asked ops ++ [path] := by rw [asked_append]; rfl
  have hlift : ∀ {j : Nat} {p : Path}, (asked ops)[j]? = some p → (asked ops ++ [path])[j]? = some p := by
    intro j p h
    have := (List.getElem?_eq_some_iff.mp h).1
    rw [List.getElem?_append_left this]; exact h
  have hset : ∀ p m, (set s.managers path (some m3)) p = some m → (p = path ∧ m = m3) ∨ (p ≠ path ∧ s.managers p = some m) := by
    intro p m h
    unfold set at h
    split at h
    · rename_i e; exact .inl ⟨e, by simpa using h.symm⟩
    · rename_i e; exact .inr ⟨e, h⟩
  constructor
  · rw [ea]; simp [hk.ids]
  · rw [ea]; simp [hk.handles]
  · intro j p hj
    rw [ea] at hj
    by_cases hp : p = path
    · subst hp
      refine ⟨m3, by simp [set], ?_⟩
      have := (List.getElem?_eq_some_iff.mp hj).1
      rw [List.length_append, ← hk.ids] at this
      simp only [List.length_singleton] at this
      omega
    · have hj' : (asked ops)[j]? = some p := by
        rw [List.getElem?_append] at hj
        split at hj
        · exact hj
        · rename_i hlt
          have := List.mem_of_getElem? hj
          rw [List.mem_singleton] at this
          exact absurd this hp
      obtain ⟨m, h1, h2⟩ := hk.askedEst j p hj'
      exact ⟨m, by simp only [set]; rw [if_neg hp]; exact h1, h2⟩
  · intro p m hm
    rcases hset p m hm with ⟨rfl, rfl⟩ | ⟨hp, hm'⟩
    · exact ⟨s.nextId, hest.symm, by rw [ea, hk.ids]; simp⟩
    · obtain ⟨j, h1, h2⟩ := hk.estAsked p m hm'
      exact ⟨j, h1, by rw [ea]; exact hlift h2⟩
  · intro p m hm
    rcases hset p m hm with ⟨rfl, rfl⟩ | ⟨hp, hm'⟩
    · exact hnd
    · exact hk.nodup p m hm'
  · intro p m hm
    rcases hset p m hm with ⟨rfl, rfl⟩ | ⟨hp, hm'⟩
    · rw [hest]; exact htop
    · exact hk.top p m hm'
  · intro p m hm
    rcases hset p m hm with ⟨rfl, rfl⟩ | ⟨hp, hm'⟩
    · exact ⟨c.nextRef, by rw [hest]; exact htip⟩
    · exact hk.tip p m hm'
  · intro e he
    obtain ⟨j, h1, h2⟩ := hk.logAsked e he
    exact ⟨j, h1, by rw [ea]; exact hlift h2⟩
  · intro x hx
    rw [List.mem_append, List.mem_singleton] at hx
    rcases hx with hx | rfl
    · obtain ⟨h1, h2⟩ := hk.ctxAsked x hx
      exact ⟨h1, by rw [ea]; exact hlift h2⟩
    · refine ⟨by simp only [hcr, hk.handles, hk.ids], ?_⟩
      simp only []
      rw [ea, hk.handles, hcp]; simp
  · intro x hx
    rw [List.mem_append, List.mem_singleton] at hx
    rcases hx with hx | rfl
    · exact hk.ctxEst x hx
    · simp only []
      rw [hce]
      cases hm : s.managers path with
      | none => simp [Manager.empty]
      | some m =>
        obtain ⟨j, h1, h2⟩ := hk.estAsked path m hm
        have := (List.getElem?_eq_some_iff.mp h2).1
        simp only [Option.getD_some]
        rw [hk.handles]; omega
  · intro x hx m hm
    rw [List.mem_append, List.mem_singleton] at hx
    rcases hx with hx | rfl
    · rcases hset _ m hm with ⟨hp, rfl⟩ | ⟨hp, hm'⟩
      · obtain ⟨m0, hm0⟩ := hi.cman x hx
        exact hold m0 (by rw [← hp]; exact hm0) _ (hk.ctxKeep x hx m0 hm0)
      · exact hk.ctxKeep x hx m hm'
    · rcases hset _ m hm with ⟨hp, rfl⟩ | ⟨hp, hm'⟩
      · simp only [hcr]; exact htip
      · exact absurd hcp hp
  · intro e he m hm hcond
    rcases hset _ m hm with ⟨hp, rfl⟩ | ⟨hp, hm'⟩
    · obtain ⟨j, hj1, hj2⟩ := hk.logAsked e he
      obtain ⟨m0, hm0, hle⟩ := hk.askedEst j _ hj2
      have hlt := (List.getElem?_eq_some_iff.mp hj2).1
      rw [← hk.ids] at hlt
      have hc0 : e.2.id = m0.estimated ∨ ∃ x ∈ s.ctxs, x.2.path = e.2.path ∧ x.2.estimated ≤ e.2.id := by
        rcases hcond with h | ⟨x, hx, hxp, hxe⟩
        · exfalso; rw [hest] at h; omega
        · rw [List.mem_append, List.mem_singleton] at hx
          rcases hx with hx | rfl
          · exact .inr ⟨x, hx, hxp, hxe⟩
          · left
            simp only [hce] at hxe
            rw [← hp, hm0] at hxe
            simp only [Option.getD_some] at hxe
            omega
      obtain ⟨ref, sl, h1, h2, h4⟩ := hk.logKeep e he m0 hm0 hc0
      exact ⟨ref, sl, hold m0 (by rw [← hp]; exact hm0) _ h1, hkeep _ _ h2, h4⟩
    · have hc0 : e.2.id = m.estimated ∨ ∃ x ∈ s.ctxs, x.2.path = e.2.path ∧ x.2.estimated ≤ e.2.id := by
        rcases hcond with h | ⟨x, hx, hxp, hxe⟩
        · exact .inl h
        · rw [List.mem_append, List.mem_singleton] at hx
          rcases hx with hx | rfl
          · exact .inr ⟨x, hx, hxp, hxe⟩
          · exact absurd (hxp.symm.trans hcp) hp
      obtain ⟨ref, sl, h1, h2, h4⟩ := hk.logKeep e he m hm' hc0
      exact ⟨ref, sl, h1, hkeep _ _ h2, h4⟩
  · intro p m hm hno
    rcases hset p m hm with ⟨rfl, rfl⟩ | ⟨hp, hm'⟩
    · exact absurd hcp (hno (s.nextCtx, c) (by simp))
    · exact hk.free p m hm' (fun x hx => hno x (by simp [hx]))
  · intro k hlt hrel
    simp only [] at hlt
    by_cases he : k = s.nextCtx
    · exact ⟨c, by rw [he]; simp⟩
    · obtain ⟨c', hc'⟩ := hk.live k (by omega) (fun h => hrel (by simp [h]))
      exact ⟨c', by simp [hc']⟩

theorem kept_acquire {ops : List Op} {s : State} {log : Log} (hi : Inv s log) (hk : Kept ops s log) (path : Path) (q : Option Nat)
    (hq : ∀ i, q = some i → i = 0 ∨ ∃ o ∈ log, o.2.path = path ∧ o.2.id = i) :
    Kept (ops ++ [.acquire path q]) (acquire s path q) log := by
  have hm0 : ∀ x ∈ ((s.managers path).getD Manager.empty).slots,
      ∃ sl, s.heap x.2 = some sl ∧ sl.path = path ∧ sl.revision = x.1 := by
    cases hmp : s.managers path with
    | none => simp [Manager.empty]
    | some m0 => simpa using hi.mslots _ _ hmp
  have hn0 : (((s.managers path).getD Manager.empty).slots.map (·.1)).Nodup := by
    cases hmp : s.managers path with
    | none => simp [Manager.empty]
    | some m0 => simpa using hk.nodup _ _ hmp
  have ht0 : ∀ x ∈ ((s.managers path).getD Manager.empty).slots, x.1 ≤ ((s.managers path).getD Manager.empty).estimated := by
    cases hmp : s.managers path with
    | none => simp [Manager.empty]
    | some m0 => simpa using hk.top _ _ hmp
  have he0 : ((s.managers path).getD Manager.empty).estimated ≤ s.nextId := by
    cases hmp : s.managers path with
    | none => simp [Manager.empty]
    | some m0 =>
      obtain ⟨j, h1, h2⟩ := hk.estAsked path m0 hmp
      have := (List.getElem?_eq_some_iff.mp h2).1
      simp only [Option.getD_some]
      rw [hk.ids]; omega
  unfold acquire
  simp only []
  split
  · rename_i p hp
    have hpe : p ≤ ((s.managers path).getD Manager.empty).estimated := by
      rw [Option.filter_eq_some_iff] at hp
      rcases hq p hp.1 with h | ⟨o, ho, hop, hoi⟩
      · exact absurd h (by simpa using hp.2)
      · obtain ⟨j, h1, h2⟩ := hk.logAsked o ho
        obtain ⟨m, h3, h4⟩ := hk.askedEst j _ h2
        rw [hop] at h3
        rw [h3]; simp only [Option.getD_some]; omega
    generalize hf2 : findRevision path _ s.heap s.nextRef p = f2
    obtain ⟨m2, h2, r2, pref⟩ := f2
    generalize hf3 : findRevision path _ _ _ (s.nextId + 1) = f3
    obtain ⟨m3, h3, r3, nref⟩ := f3
    simp only [] at hf3 ⊢
    obtain ⟨a1, a2, a3, a4, a5, a6⟩ := findRevision_spec path { ((s.managers path).getD Manager.empty) with locked := incrLock ((s.managers path).getD Manager.empty).locked ((s.managers path).getD Manager.empty).estimated } _ _ _ hi.refs hm0 hf2
    obtain ⟨b1, b2, b3, b4, b5, b6⟩ := findRevision_spec path _ _ _ _ a1 a2 hf3
    obtain ⟨c1, c2, c3, c4, c5⟩ := findRevision_slots path { ((s.managers path).getD Manager.empty) with locked := incrLock ((s.managers path).getD Manager.empty).locked ((s.managers path).getD Manager.empty).estimated } _ _ _ hn0 ht0 hf2
    simp only [] at c1 c4 c5
    have ht2 : ∀ x ∈ m2.slots, x.1 ≤ m2.estimated := by
      intro x hx
      rw [c1]
      rcases c5 x hx with h | h
      · have := ht0 x h; omega
      · omega
    obtain ⟨d1, d2, d3, d4, d5⟩ := findRevision_slots path _ _ _ _ c2 ht2 hf3
    refine kept_add hi hk path q (c := ⟨path, _, some p, _, s.nextId + 1, nref, false⟩) (fun r sl h => b4 _ _ (a4 _ _ h))
      (by rw [d1, c1]; omega) d2 d3 ?_ ?_ rfl rfl rfl
    · intro m hm x hx
      apply d4; apply c4; rw [hm]; exact hx
    · intro x hx
      rcases d5 x hx with h | h
      · have := ht2 x h; rw [c1] at this; omega
      · omega
  · generalize hf3 : findRevision path _ _ _ (s.nextId + 1) = f3
    obtain ⟨m3, h3, r3, nref⟩ := f3
    simp only []
    obtain ⟨b1, b2, b3, b4, b5, b6⟩ := findRevision_spec path { ((s.managers path).getD Manager.empty) with locked := incrLock ((s.managers path).getD Manager.empty).locked ((s.managers path).getD Manager.empty).estimated } _ _ _ hi.refs hm0 hf3
    obtain ⟨d1, d2, d3, d4, d5⟩ := findRevision_slots path { ((s.managers path).getD Manager.empty) with locked := incrLock ((s.managers path).getD Manager.empty).locked ((s.managers path).getD Manager.empty).estimated } _ _ _ hn0 ht0 hf3
    simp only [] at d1 d4 d5
    refine kept_add hi hk path q (c := ⟨path, _, none, none, s.nextId + 1, nref, false⟩) b4
      (by rw [d1]; omega) d2 d3 ?_ ?_ rfl rfl rfl
    · intro m hm x hx
      apply d4; rw [hm]; exact hx
    · intro x hx
      rcases d5 x hx with h | h
      · have := ht0 x h; omega
      · omega

theorem kept_respond {ops : List Op} {s s' : State} {log : Log} {rep : Reply} (hi : Inv s log) (hk : Kept ops s log) {h : Nat} {c : Ctx}
    (hc : (h, c) ∈ s.ctxs) (toks : Toks) (hr : respond s h c toks = some (s', rep)) :
    Kept (ops ++ [.respond h toks]) s' (log ++ [(toks, rep)]) := by
  have ea : asked (ops ++ [.respond h toks]) = asked ops := by rw [asked_append]; simp [asked]
  unfold respond at hr
  split at hr
  · cases hr
  · rename_i slot hslot
    split at hr
    · cases hr
    · rename_i hd
      simp only [Option.some.injEq, Prod.mk.injEq] at hr
      obtain ⟨rfl, rfl⟩ := hr
      have hmark : ∀ x ∈ markResponded s.ctxs h, ∃ y ∈ s.ctxs, y.1 = x.1 ∧ y.2.path = x.2.path ∧ y.2.estimated = x.2.estimated ∧
          y.2.nextRev = x.2.nextRev ∧ y.2.nextRef = x.2.nextRef := by
        intro x hx
        obtain ⟨k, d⟩ := x
        obtain ⟨d0, hd0, hd⟩ := mark_mem hx
        refine ⟨(k, d0), hd0, rfl, ?_⟩
        rw [hd]; split <;> exact ⟨rfl, rfl, rfl, rfl⟩
      have hmark' : ∀ k c0, (k, c0) ∈ s.ctxs → ∃ c', (k, c') ∈ markResponded s.ctxs h ∧ c'.path = c0.path ∧ c'.estimated = c0.estimated := by
        intro k c0 hm
        by_cases hkh : k = h
        · exact ⟨{ c0 with responded := true }, List.mem_map.mpr ⟨(k, c0), hm, by simp [hkh]⟩, rfl, rfl⟩
        · exact ⟨c0, List.mem_map.mpr ⟨(k, c0), hm, by simp [hkh]⟩, rfl, rfl⟩
      have hheap : ∀ r sl t, s.heap r = some sl → sl.data = some t →
          setHeap s.heap c.nextRef { slot with data := some toks } r = some sl := by
        intro r sl t h1 h2
        unfold setHeap
        rw [if_neg]
        · exact h1
        · intro e; rw [e, hslot] at h1; cases h1; rw [hd] at h2; cases h2
      constructor
      · rw [ea]; exact hk.ids
      · rw [ea]; exact hk.handles
      · rw [ea]; exact hk.askedEst
      · rw [ea]; exact hk.estAsked
      · exact hk.nodup
      · exact hk.top
      · exact hk.tip
      · rw [ea]
        intro e he
        rw [List.mem_append, List.mem_singleton] at he
        rcases he with he | rfl
        · exact hk.logAsked e he
        · obtain ⟨h1, h2⟩ := hk.ctxAsked _ hc
          exact ⟨h, h1, h2⟩
      · rw [ea]
        intro x hx
        obtain ⟨y, hy, e1, e2, e3, e4, e5⟩ := hmark x hx
        rw [← e1, ← e2, ← e4]; exact hk.ctxAsked y hy
      · intro x hx
        obtain ⟨y, hy, e1, e2, e3, e4, e5⟩ := hmark x hx
        rw [← e1, ← e3]; exact hk.ctxEst y hy
      · intro x hx
        obtain ⟨y, hy, e1, e2, e3, e4, e5⟩ := hmark x hx
        rw [← e2, ← e4, ← e5]; exact hk.ctxKeep y hy
      · intro e he m hm hcond
        rw [List.mem_append, List.mem_singleton] at he
        rcases he with he | rfl
        · have hc0 : e.2.id = m.estimated ∨ ∃ x ∈ s.ctxs, x.2.path = e.2.path ∧ x.2.estimated ≤ e.2.id := by
            rcases hcond with h | ⟨x, hx, hxp, hxe⟩
            · exact .inl h
            · obtain ⟨y, hy, e1, e2, e3, e4, e5⟩ := hmark x hx
              exact .inr ⟨y, hy, by rw [e2]; exact hxp, by rw [e3]; exact hxe⟩
          obtain ⟨ref, sl, h1, h2, h3⟩ := hk.logKeep e he m hm hc0
          exact ⟨ref, sl, h1, hheap _ _ _ h2 h3, h3⟩
        · exact ⟨c.nextRef, { slot with data := some toks }, hk.ctxKeep _ hc m hm, by simp [setHeap], rfl⟩
      · intro p m hm hno
        apply hk.free p m hm
        intro x hx hp
        obtain ⟨c', h1, h2, h3⟩ := hmark' x.1 x.2 hx
        exact hno _ h1 (h2.trans hp)
      · intro k hlt hrel
        obtain ⟨c0, hc0⟩ := hk.live k hlt (fun hh => hrel (by simp [hh]))
        obtain ⟨c', h1, _⟩ := hmark' k c0 hc0
        exact ⟨c', h1⟩

/-- What `decrLock` tells about the entry. -/
theorem decrLock_removed (l : List (Nat × Nat)) (e : Nat) (hwf : LockWF l) {r : List (Nat × Nat)} {b : Bool}
    (h : decrLock l e = some (r, b)) : (b = true → e ∉ r.map (·.1)) ∧ (b = false → e ∈ r.map (·.1)) := by
  induction l generalizing r b with
  | nil => cases h
  | cons a l ih =>
    obtain ⟨k, n⟩ := a
    obtain ⟨h1, h2⟩ := hwf
    simp only [List.map_cons, List.nodup_cons] at h1
    unfold decrLock at h
    split at h
    · rename_i hk
      split at h
      · simp only [Option.some.injEq, Prod.mk.injEq] at h
        obtain ⟨rfl, rfl⟩ := h
        exact ⟨by simp, fun _ => by simp [hk]⟩
      · simp only [Option.some.injEq, Prod.mk.injEq] at h
        obtain ⟨rfl, rfl⟩ := h
        exact ⟨fun _ => by rw [← hk]; exact h1.1, by simp⟩
    · rename_i hk
      cases hd : decrLock l e with
      | none => rw [hd] at h; cases h
      | some x =>
        rw [hd] at h
        simp only [Option.some.injEq, Prod.mk.injEq] at h
        obtain ⟨rfl, rfl⟩ := h
        obtain ⟨i1, i2⟩ := ih ⟨h1.2, fun p hp => h2 p (List.mem_cons_of_mem _ hp)⟩ hd
        refine ⟨fun hb => ?_, fun hb => ?_⟩
        · simp only [List.map_cons, List.mem_cons, not_or]
          exact ⟨fun h => hk h.symm, i1 hb⟩
        · simp only [List.map_cons, List.mem_cons]
          exact .inr (i2 hb)

theorem lockN_pos_iff (l : List (Nat × Nat)) (hwf : LockWF l) (e : Nat) : 0 < lockN l e ↔ e ∈ l.map (·.1) := by
  constructor
  · intro h
    refine Classical.byContradiction fun hn => ?_
    rw [lockN_notin l e hn] at h; omega
  · intro h
    induction l with
    | nil => cases h
    | cons a l ih =>
      obtain ⟨k, n⟩ := a
      rw [lockN_cons]
      split
      · exact hwf.2 (k, n) (by simp)
      · rename_i hk
        simp only [List.map_cons, List.mem_cons] at h
        have h1 := hwf.1
        simp only [List.map_cons, List.nodup_cons] at h1
        exact ih ⟨h1.2, fun p hp => hwf.2 p (List.mem_cons_of_mem _ hp)⟩ (h.resolve_left hk)

theorem kept_release {ops : List Op} {s s' : State} {log : Log} (hi : Inv s log) (hk : Kept ops s log) {h : Nat} {c : Ctx}
    (hc : (h, c) ∈ s.ctxs) (hr : release s h c = some s') : Kept (ops ++ [.release h]) s' log := by
  have ea : asked (ops ++ [.release h]) = asked ops := by rw [asked_append]; simp [asked]
  obtain ⟨m, hm⟩ := hi.cman _ hc
  simp only [] at hm
  have hpos : 0 < lockN m.locked c.estimated := by
    rw [hi.locks _ _ hm]; exact holders_pos hc
  obtain ⟨r, b, hd, hwf, hcnt, hkeys⟩ := decrLock_spec _ _ (hi.lockwf _ _ hm) hpos
  obtain ⟨hb1, hb2⟩ := decrLock_removed _ _ (hi.lockwf _ _ hm) hd
  have hmem : ∀ x ∈ s.ctxs.filter (fun p => p.1 ≠ h), x ∈ s.ctxs := fun x hx => (List.mem_filter.mp hx).1
  -- the remaining contexts hold the remaining locks
  have hlocked : ∀ x ∈ s.ctxs.filter (fun p => p.1 ≠ h), x.2.path = c.path → x.2.estimated ∈ r.map (·.1) := by
    intro x hx hp
    rw [← lockN_pos_iff r hwf, hcnt, hi.locks _ _ hm]
    have := holders_filter s.ctxs h c hi.hnd hc c.path x.2.estimated
    have hp2 : 0 < holders (s.ctxs.filter (fun p => p.1 ≠ h)) c.path x.2.estimated := by
      rw [← hp]; exact holders_pos (h := x.1) (c := x.2) hx
    rw [this] at hp2
    simpa using hp2
  have hholder : ∀ e ∈ r.map (·.1), ∃ x ∈ s.ctxs.filter (fun p => p.1 ≠ h), x.2.path = c.path ∧ x.2.estimated = e := by
    intro e he
    rw [← lockN_pos_iff r hwf, hcnt, hi.locks _ _ hm] at he
    have := holders_filter s.ctxs h c hi.hnd hc c.path e
    have hp2 : 0 < holders (s.ctxs.filter (fun p => p.1 ≠ h)) c.path e := by
      rw [this]; simpa using he
    unfold holders at hp2
    rw [List.countP_pos_iff] at hp2
    obtain ⟨x, hx, hp⟩ := hp2
    simp only [Bool.and_eq_true, decide_eq_true_eq] at hp
    exact ⟨x, hx, hp.1, hp.2⟩
  have key : ∀ slots' : List (Nat × Nat), (slots'.Sublist m.slots) →
      (∀ x ∈ m.slots, (x.1 = m.estimated ∨ ∃ e ∈ r.map (·.1), e ≤ x.1) → x ∈ slots') →
      (r = [] → ∀ x ∈ slots', x.1 = m.estimated) →
      Kept (ops ++ [.release h])
        ⟨s.nextId, set s.managers c.path (some { m with locked := r, slots := slots' }), s.heap, s.nextRef,
          s.ctxs.filter (fun p => p.1 ≠ h), s.nextCtx⟩ log := by
    intro slots' hsub hk1 hk2
    have hset : ∀ p m', (set s.managers c.path (some { m with locked := r, slots := slots' })) p = some m' →
        (p = c.path ∧ m' = { m with locked := r, slots := slots' }) ∨ (p ≠ c.path ∧ s.managers p = some m') := by
      intro p m' h
      unfold set at h
      split at h
      · rename_i e; exact .inl ⟨e, by simpa using h.symm⟩
      · rename_i e; exact .inr ⟨e, h⟩
    constructor
    · rw [ea]; exact hk.ids
    · rw [ea]; exact hk.handles
    · rw [ea]
      intro j p hj
      obtain ⟨m0, h1, h2⟩ := hk.askedEst j p hj
      by_cases hp : p = c.path
      · subst hp
        rw [hm] at h1; cases h1
        exact ⟨{ m with locked := r, slots := slots' }, by simp [set], h2⟩
      · exact ⟨m0, by simp only [set]; rw [if_neg hp]; exact h1, h2⟩
    · rw [ea]
      intro p m' hm'
      rcases hset p m' hm' with ⟨rfl, rfl⟩ | ⟨hp, hm'⟩
      · exact hk.estAsked c.path m hm
      · exact hk.estAsked p m' hm'
    · intro p m' hm'
      rcases hset p m' hm' with ⟨rfl, rfl⟩ | ⟨hp, hm'⟩
      · exact (hk.nodup _ _ hm).sublist (hsub.map _)
      · exact hk.nodup p m' hm'
    · intro p m' hm'
      rcases hset p m' hm' with ⟨rfl, rfl⟩ | ⟨hp, hm'⟩
      · exact fun x hx => hk.top _ _ hm x (hsub.subset hx)
      · exact hk.top p m' hm'
    · intro p m' hm'
      rcases hset p m' hm' with ⟨rfl, rfl⟩ | ⟨hp, hm'⟩
      · obtain ⟨ref, href⟩ := hk.tip _ _ hm
        exact ⟨ref, hk1 _ href (.inl rfl)⟩
      · exact hk.tip p m' hm'
    · rw [ea]; exact hk.logAsked
    · rw [ea]; exact fun x hx => hk.ctxAsked x (hmem x hx)
    · exact fun x hx => hk.ctxEst x (hmem x hx)
    · intro x hx m' hm'
      rcases hset _ m' hm' with ⟨hp, rfl⟩ | ⟨hp, hm'⟩
      · apply hk1
        · exact hk.ctxKeep x (hmem x hx) m (by rw [hp]; exact hm)
        · right
          refine ⟨_, hlocked x hx hp, ?_⟩
          have h1 := hk.ctxEst x (hmem x hx)
          have h2 := (hk.ctxAsked x (hmem x hx)).1
          simp only []; omega
      · exact hk.ctxKeep x (hmem x hx) m' hm'
    · intro e he m' hm' hcond
      rcases hset _ m' hm' with ⟨hp, rfl⟩ | ⟨hp, hm'⟩
      · simp only [] at hcond
        have hc0 : e.2.id = m.estimated ∨ ∃ x ∈ s.ctxs, x.2.path = e.2.path ∧ x.2.estimated ≤ e.2.id := by
          rcases hcond with h | ⟨x, hx, hxp, hxe⟩
          · exact .inl h
          · exact .inr ⟨x, hmem x hx, hxp, hxe⟩
        obtain ⟨ref, sl, h1, h2, h3⟩ := hk.logKeep e he m (by rw [hp]; exact hm) hc0
        refine ⟨ref, sl, hk1 _ h1 ?_, h2, h3⟩
        rcases hcond with h | ⟨x, hx, hxp, hxe⟩
        · exact .inl h
        · exact .inr ⟨_, hlocked x hx (hxp.trans hp), hxe⟩
      · have hc0 : e.2.id = m'.estimated ∨ ∃ x ∈ s.ctxs, x.2.path = e.2.path ∧ x.2.estimated ≤ e.2.id := by
          rcases hcond with h | ⟨x, hx, hxp, hxe⟩
          · exact .inl h
          · exact .inr ⟨x, hmem x hx, hxp, hxe⟩
        exact hk.logKeep e he m' hm' hc0
    · intro p m' hm' hno
      rcases hset p m' hm' with ⟨rfl, rfl⟩ | ⟨hp, hm'⟩
      · apply hk2
        cases r with
        | nil => rfl
        | cons a r =>
          obtain ⟨x, hx, hxp, _⟩ := hholder a.1 (by simp)
          exact absurd hxp (hno x hx)
      · apply hk.free p m' hm'
        intro x hx hxp
        apply hno x _ hxp
        rw [List.mem_filter]
        refine ⟨hx, ?_⟩
        simp only [decide_eq_true_eq, ne_eq]
        intro hxh
        have : x = (h, c) := nodup_map_inj hi.hnd hx hc hxh
        rw [this] at hxp
        exact hp hxp.symm
    · intro k hlt hrel
      obtain ⟨c0, hc0⟩ := hk.live k hlt (fun hh => hrel (by simp [hh]))
      refine ⟨c0, List.mem_filter.mpr ⟨hc0, ?_⟩⟩
      simp only [decide_eq_true_eq, ne_eq]
      intro hkh
      exact hrel (by simp [hkh])
  unfold release at hr
  rw [hm] at hr
  simp only [hd] at hr
  cases b with
  | false =>
    simp only [Option.some.injEq] at hr
    subst hr
    refine key m.slots (List.Sublist.refl _) (fun x hx _ => hx) ?_
    intro hre
    have := hb2 rfl
    rw [hre] at this; cases this
  | true =>
    simp only [Option.some.injEq] at hr
    subst hr
    cases hmin : (r.map (·.1)).min? with
    | some e0 =>
      have hmem0 : e0 ∈ r.map (·.1) := List.min?_mem hmin
      have hle0 : ∀ e ∈ r.map (·.1), e0 ≤ e := (List.le_min?_iff hmin).mp (Nat.le_refl _)
      refine key _ List.filter_sublist ?_ ?_
      · intro x hx hcond
        rw [List.mem_filter]
        refine ⟨hx, ?_⟩
        simp only [decide_eq_true_eq]
        rcases hcond with h | ⟨e, he, hle⟩
        · obtain ⟨y, hy, hyp, hye⟩ := hholder e0 hmem0
          have h1 := hk.ctxEst y (hmem y hy)
          obtain ⟨h2, h3⟩ := hk.ctxAsked y (hmem y hy)
          obtain ⟨m1, h4, h5⟩ := hk.askedEst _ _ h3
          rw [hyp, hm] at h4; cases h4
          omega
        · have := hle0 e he; omega
      · intro hre; rw [hre] at hmem0; cases hmem0
    | none =>
      have hre : r = [] := by
        rw [List.min?_eq_none_iff] at hmin
        exact List.map_eq_nil_iff.mp hmin
      obtain ⟨ref, href⟩ := hk.tip _ _ hm
      have hmax : (m.slots.map (·.1)).max? = some m.estimated := by
        rw [List.max?_eq_some_iff]
        refine ⟨List.mem_map.mpr ⟨_, href, rfl⟩, ?_⟩
        intro b hb
        obtain ⟨x, hx, rfl⟩ := List.mem_map.mp hb
        exact hk.top _ _ hm x hx
      simp only [hmax]
      refine key _ List.filter_sublist ?_ ?_
      · intro x hx hcond
        rw [List.mem_filter]
        refine ⟨hx, ?_⟩
        simp only [decide_eq_true_eq]
        rcases hcond with h | ⟨e, he, hle⟩
        · omega
        · rw [hre] at he; cases he
      · intro _ x hx
        rw [List.mem_filter] at hx
        have h1 := hk.top _ _ hm x hx.1
        have h2 : m.estimated ≤ x.1 := by simpa using hx.2
        omega

theorem kept_ignored {ops : List Op} {s : State} {log : Log} (hk : Kept ops s log) (op : Op)
    (ha : asked (ops ++ [op]) = asked ops) : Kept (ops ++ [op]) s log := by
  constructor
  · rw [ha]; exact hk.ids
  · rw [ha]; exact hk.handles
  · rw [ha]; exact hk.askedEst
  · rw [ha]; exact hk.estAsked
  · exact hk.nodup
  · exact hk.top
  · exact hk.tip
  · rw [ha]; exact hk.logAsked
  · rw [ha]; exact hk.ctxAsked
  · exact hk.ctxEst
  · exact hk.ctxKeep
  · exact hk.logKeep
  · exact hk.free
  · exact fun k hlt hrel => hk.live k hlt (fun h => hrel (by simp [h]))

theorem kept_step {ops : List Op} {s : State} {log : Log} (hi : Inv s log) (hk : Kept ops s log) (op : Op)
    (hc : op.isClear = false)
    (hq : ∀ p i, op = .acquire p (some i) → i = 0 ∨ ∃ o ∈ log, o.2.path = p ∧ o.2.id = i)
    {s' out} (h : step s op = some (s', out)) : Kept (ops ++ [op]) s' (log ++ out.toList) := by
  cases op with
  | clear => cases hc
  | acquire path prev =>
    simp only [step, Option.some.injEq, Prod.mk.injEq] at h
    obtain ⟨rfl, rfl⟩ := h
    simpa using kept_acquire hi hk path prev (fun i hi => hq path i (by rw [hi]))
  | respond k toks =>
    have ea : asked (ops ++ [.respond k toks]) = asked ops := by rw [asked_append]; simp [asked]
    simp only [step] at h
    split at h
    · simp only [Option.some.injEq, Prod.mk.injEq] at h
      obtain ⟨rfl, rfl⟩ := h
      simpa using kept_ignored hk _ ea
    · rename_i c hl
      split at h
      · simp only [Option.some.injEq, Prod.mk.injEq] at h
        obtain ⟨rfl, rfl⟩ := h
        simpa using kept_ignored hk _ ea
      · split at h
        · cases h
        · rename_i s1 r hr
          simp only [Option.some.injEq, Prod.mk.injEq] at h
          obtain ⟨rfl, rfl⟩ := h
          exact kept_respond hi hk (lookup_mem hl) toks hr
  | release k =>
    simp only [step] at h
    split at h
    · rename_i hl
      simp only [Option.some.injEq, Prod.mk.injEq] at h
      obtain ⟨rfl, rfl⟩ := h
      have ea : asked (ops ++ [.release k]) = asked ops := by rw [asked_append]; simp [asked]
      simpa using kept_ignored hk _ ea
    · rename_i c hl
      split at h
      · cases h
      · rename_i s1 hr
        simp only [Option.some.injEq, Prod.mk.injEq] at h
        obtain ⟨rfl, rfl⟩ := h
        simpa using kept_release hi hk (lookup_mem hl) hr

theorem run_append (s : State) (a b : List Op) :
    run s (a ++ b) = (run s a).bind fun x => (run x.1 b).map fun y => (y.1, x.2 ++ y.2) := by
  induction a generalizing s with
  | nil =>
    simp only [List.nil_append, run, Option.bind_some]
    cases run s b <;> rfl
  | cons op a ih =>
    rw [List.cons_append]
    simp only [run]
    cases step s op with
    | none => rfl
    | some x =>
      obtain ⟨s1, out⟩ := x
      simp only [ih s1]
      cases run s1 a with
      | none => rfl
      | some y =>
        obtain ⟨s2, outs⟩ := y
        simp only [Option.bind_some]
        cases run s2 b with
        | none => simp
        | some z => simp

theorem kept_run (ops : List Op) (hops : ∀ op ∈ ops, op.isClear = false) (hh : Honest ops) :
    ∃ s outs, run init ops = some (s, outs) ∧ Inv s outs ∧ Kept ops s outs := by
  rw [← List.reverse_reverse ops] at hops hh ⊢
  generalize ops.reverse = l at hops hh ⊢
  induction l with
  | nil => exact ⟨init, [], rfl, inv_init, kept_init⟩
  | cons op l ih =>
    rw [List.reverse_cons] at hops hh ⊢
    obtain ⟨s, outs, h1, h2, h3⟩ := ih (fun o ho => hops o (by simp [ho])) (by
      intro pre p i post he
      exact hh pre p i (post ++ [op]) (by rw [he]; simp))
    obtain ⟨s', out, h4, h5⟩ := inv_step h2 op (hops op (by simp))
    refine ⟨s', outs ++ out.toList, ?_, h5, kept_step h2 h3 op (hops op (by simp)) ?_ h4⟩
    · rw [run_append, h1]
      simp [run, h4]
    · intro p i he
      obtain h0 | ⟨s0, outs0, g1, g2⟩ := hh l.reverse p i [] (by rw [he])
      · exact .inl h0
      · rw [h1] at g1
        cases g1
        exact .inr g2

end Tinymist.TokenCache
