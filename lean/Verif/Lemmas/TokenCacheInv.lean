import Verif.Lemmas.TokenCache
import Verif.Spec.TokenCache
namespace Tinymist.TokenCache
open Tinymist.TokenDelta Tinymist.TokenDelta.Spec Spec

abbrev Log := List (Toks × Reply)

structure Inv (s : State) (log : Log) : Prop where
  refs : ∀ r sl, s.heap r = some sl → r < s.nextRef
  mslots : ∀ p m, s.managers p = some m → ∀ x ∈ m.slots, ∃ sl, s.heap x.2 = some sl ∧ sl.path = p ∧ sl.revision = x.1
  hdata : ∀ r sl toks, s.heap r = some sl → sl.data = some toks →
    ∃ rep, (toks, rep) ∈ log ∧ rep.path = sl.path ∧ rep.id = sl.revision
  cslot : ∀ x ∈ s.ctxs, ∃ sl, s.heap x.2.nextRef = some sl ∧ sl.path = x.2.path ∧
    sl.revision = x.2.nextRev ∧ (x.2.responded = false → sl.data = none)
  cprev : ∀ x ∈ s.ctxs, ∀ cached, x.2.prev = some cached → ∃ q rep, x.2.quoted = some q ∧
    (cached, rep) ∈ log ∧ rep.path = x.2.path ∧ rep.id = q
  cids : ∀ x ∈ s.ctxs, x.2.nextRev ≤ s.nextId
  lids : ∀ e ∈ log, e.2.id ≤ s.nextId
  hnd : (s.ctxs.map (·.1)).Nodup
  hlt : ∀ x ∈ s.ctxs, x.1 < s.nextCtx
  rnd : (s.ctxs.map (·.2.nextRev)).Nodup
  fresh : ∀ x ∈ s.ctxs, x.2.responded = false → ∀ e ∈ log, e.2.id ≠ x.2.nextRev
  lnd : (log.map (·.2.id)).Nodup
  lockwf : ∀ p m, s.managers p = some m → LockWF m.locked
  locks : ∀ p m, s.managers p = some m → ∀ e, lockN m.locked e = holders s.ctxs p e
  cman : ∀ x ∈ s.ctxs, ∃ m, s.managers x.2.path = some m
  shown : (clientAfter (log.map (·.2))).shown = log.map (fun e => some (wire e.1))
  held : ∀ e ∈ log, (clientAfter (log.map (·.2))).held e.2.path e.2.id = some (wire e.1)

theorem inv_init : Inv init [] := by
  constructor <;> simp [init, clientAfter, Client.init]

/-- Facts about `findRevision`. -/
theorem findRevision_spec (p : Path) (m : Manager) (heap : Nat → Option Slot) (nr rev : Nat)
    (hrefs : ∀ r sl, heap r = some sl → r < nr)
    (hms : ∀ x ∈ m.slots, ∃ sl, heap x.2 = some sl ∧ sl.path = p ∧ sl.revision = x.1)
    {m' heap' nr' ref} (h : findRevision p m heap nr rev = (m', heap', nr', ref)) :
    (∀ r sl, heap' r = some sl → r < nr') ∧
    (∀ x ∈ m'.slots, ∃ sl, heap' x.2 = some sl ∧ sl.path = p ∧ sl.revision = x.1) ∧
    m'.locked = m.locked ∧
    (∀ r sl, heap r = some sl → heap' r = some sl) ∧
    (∀ r sl, heap' r = some sl → heap r = some sl ∨ (sl.data = none)) ∧
    (∃ sl, heap' ref = some sl ∧ sl.path = p ∧ sl.revision = rev) := by
  have fresh : (m', heap', nr', ref) = ({ m with slots := m.slots ++ [(rev, nr)], estimated := max rev m.estimated },
      setHeap heap nr { path := p, revision := rev, data := none }, nr + 1, nr) →
    ((∀ r sl, heap' r = some sl → r < nr') ∧
    (∀ x ∈ m'.slots, ∃ sl, heap' x.2 = some sl ∧ sl.path = p ∧ sl.revision = x.1) ∧
    m'.locked = m.locked ∧
    (∀ r sl, heap r = some sl → heap' r = some sl) ∧
    (∀ r sl, heap' r = some sl → heap r = some sl ∨ (sl.data = none)) ∧
    (∃ sl, heap' ref = some sl ∧ sl.path = p ∧ sl.revision = rev)) := by
    intro he
    simp only [Prod.mk.injEq] at he
    obtain ⟨rfl, rfl, rfl, rfl⟩ := he
    have keep : ∀ r sl, heap r = some sl → setHeap heap ref { path := p, revision := rev, data := none } r = some sl := by
      intro r sl hr
      have := hrefs _ _ hr
      unfold setHeap
      rw [if_neg (by omega)]; exact hr
    refine ⟨?_, ?_, rfl, keep, ?_, ?_⟩
    · intro r sl hr
      unfold setHeap at hr
      split at hr
      · omega
      · have := hrefs _ _ hr; omega
    · intro x hx
      rw [List.mem_append, List.mem_singleton] at hx
      rcases hx with hx | rfl
      · obtain ⟨sl, h1, h2, h3⟩ := hms x hx
        exact ⟨sl, keep _ _ h1, h2, h3⟩
      · exact ⟨{ path := p, revision := rev, data := none }, by simp [setHeap], rfl, rfl⟩
    · intro r sl hr
      unfold setHeap at hr
      split at hr
      · right; simp at hr; rw [← hr]
      · left; exact hr
    · exact ⟨{ path := p, revision := rev, data := none }, by simp [setHeap], rfl, rfl⟩
  unfold findRevision at h
  simp only [] at h
  split at h
  · rename_i x hx
    split at h
    · rename_i hrev
      simp only [Prod.mk.injEq] at h
      obtain ⟨rfl, rfl, rfl, rfl⟩ := h
      obtain ⟨sl, h1, h2, h3⟩ := hms _ (slotBase_mem hx)
      exact ⟨hrefs, hms, rfl, fun _ _ h => h, fun _ _ h => Or.inl h, sl, h1, h2, by rw [h3, hrev]⟩
    · exact fresh h.symm
  · exact fresh h.symm

theorem holders_append (ctxs : List (Nat × Ctx)) (h : Nat) (c : Ctx) (p : Path) (e : Nat) :
    holders (ctxs ++ [(h, c)]) p e = holders ctxs p e + if p = c.path ∧ e = c.estimated then 1 else 0 := by
  unfold holders
  rw [List.countP_append, List.countP_singleton]
  congr 1
  by_cases h : p = c.path ∧ e = c.estimated
  · obtain ⟨rfl, rfl⟩ := h; simp
  · rw [if_neg h, if_neg]
    simp only [Bool.and_eq_true, decide_eq_true_eq]
    grind

/-- Adding a context whose manager was locked for it preserves the invariant. -/
theorem inv_add {s : State} {log : Log} (hi : Inv s log) (path : Path)
    {m3 : Manager} {h3 : Nat → Option Slot} {r3 : Nat} {c : Ctx}
    (hrefs : ∀ r sl, h3 r = some sl → r < r3)
    (hms : ∀ x ∈ m3.slots, ∃ sl, h3 x.2 = some sl ∧ sl.path = path ∧ sl.revision = x.1)
    (hlock : m3.locked = incrLock ((s.managers path).getD Manager.empty).locked c.estimated)
    (hkeep : ∀ r sl, s.heap r = some sl → h3 r = some sl)
    (hnew : ∀ r sl, h3 r = some sl → s.heap r = some sl ∨ sl.data = none)
    (hcslot : ∃ sl, h3 c.nextRef = some sl ∧ sl.path = path ∧ sl.revision = s.nextId + 1)
    (hcp : c.path = path) (hcr : c.nextRev = s.nextId + 1) 
    (hcprev : ∀ cached, c.prev = some cached → ∃ q rep, c.quoted = some q ∧
      (cached, rep) ∈ log ∧ rep.path = path ∧ rep.id = q) :
    Inv { nextId := s.nextId + 1, managers := set s.managers path (some m3), heap := h3, nextRef := r3,
          ctxs := s.ctxs ++ [(s.nextCtx, c)], nextCtx := s.nextCtx + 1 } log := by
  have hdata : ∀ r sl toks, h3 r = some sl → sl.data = some toks →
      ∃ rep, (toks, rep) ∈ log ∧ rep.path = sl.path ∧ rep.id = sl.revision := by
    intro r sl toks hr hd
    rcases hnew r sl hr with h | h
    · exact hi.hdata r sl toks h hd
    · rw [hd] at h; cases h
  constructor
  · exact hrefs
  · intro p m hm x hx
    simp only [set] at hm
    split at hm
    · rename_i hp
      simp only [Option.some.injEq] at hm
      subst hm hp
      exact hms x hx
    · obtain ⟨sl, h1, h2⟩ := hi.mslots p m hm x hx
      exact ⟨sl, hkeep _ _ h1, h2⟩
  · exact hdata
  · intro x hx
    rw [List.mem_append, List.mem_singleton] at hx
    rcases hx with hx | rfl
    · obtain ⟨sl, h1, h2⟩ := hi.cslot x hx
      exact ⟨sl, hkeep _ _ h1, h2⟩
    · obtain ⟨sl, h1, h2, h4⟩ := hcslot
      refine ⟨sl, h1, by rw [h2, hcp], by rw [h4, hcr], fun _ => ?_⟩
      cases hd : sl.data with
      | none => rfl
      | some toks =>
        obtain ⟨rep, hr1, hr2, hr3⟩ := hdata _ _ _ h1 hd
        have := hi.lids _ hr1
        simp only [] at this
        omega
  · intro x hx cached hc
    rw [List.mem_append, List.mem_singleton] at hx
    rcases hx with hx | rfl
    · exact hi.cprev x hx cached hc
    · obtain ⟨q, rep, h1, h2, h4, h5⟩ := hcprev cached hc
      exact ⟨q, rep, h1, h2, by rw [h4, hcp], h5⟩
  · intro x hx
    rw [List.mem_append, List.mem_singleton] at hx
    rcases hx with hx | rfl
    · have := hi.cids x hx; simp only []; omega
    · simp only [hcr]; omega
  · intro e he; have := hi.lids e he; simp only []; omega
  · rw [List.map_append, List.nodup_append]
    refine ⟨hi.hnd, by simp, ?_⟩
    intro a ha b hb
    simp only [List.map_cons, List.map_nil, List.mem_singleton] at hb
    rw [List.mem_map] at ha
    obtain ⟨x, hx, rfl⟩ := ha
    have := hi.hlt x hx
    omega
  · intro x hx
    rw [List.mem_append, List.mem_singleton] at hx
    rcases hx with hx | rfl
    · have := hi.hlt x hx; simp only []; omega
    · simp only []; omega
  · rw [List.map_append, List.nodup_append]
    refine ⟨hi.rnd, by simp, ?_⟩
    intro a ha b hb
    simp only [List.map_cons, List.map_nil, List.mem_singleton] at hb
    rw [List.mem_map] at ha
    obtain ⟨x, hx, rfl⟩ := ha
    have := hi.cids x hx
    omega
  · intro x hx hresp e he
    rw [List.mem_append, List.mem_singleton] at hx
    rcases hx with hx | rfl
    · exact hi.fresh x hx hresp e he
    · have := hi.lids e he
      simp only [hcr]; omega
  · exact hi.lnd
  · intro p m hm
    simp only [set] at hm
    split at hm
    · simp only [Option.some.injEq] at hm
      subst hm
      rw [hlock]
      apply incrLock_wf
      cases hmp : s.managers path with
      | none => simp [LockWF, Manager.empty]
      | some m0 => simpa using hi.lockwf _ _ hmp
    · exact hi.lockwf p m hm
  · intro p m hm e
    simp only [set] at hm
    rw [holders_append]
    split at hm
    · rename_i hp
      simp only [Option.some.injEq] at hm
      subst hm hp
      rw [hlock, incrLock_count]
      rw [hcp]
      simp only [true_and]
      congr 1
      cases hmp : s.managers p with
      | none =>
        simp only [Option.getD_none, Manager.empty]
        have : holders s.ctxs p e = 0 := by
          unfold holders
          rw [List.countP_eq_zero]
          intro x hx
          simp only [Bool.and_eq_true, decide_eq_true_eq, not_and]
          intro hxp
          obtain ⟨m, hm⟩ := hi.cman x hx
          rw [hxp, hmp] at hm; cases hm
        rw [this]; rfl
      | some m0 => simpa using hi.locks _ _ hmp e
    · rename_i hp
      rw [hi.locks p m hm e, if_neg]
      · simp
      · rw [hcp]; grind
  · intro x hx
    rw [List.mem_append, List.mem_singleton] at hx
    simp only [set]
    rcases hx with hx | rfl
    · by_cases hp : x.2.path = path
      · exact ⟨m3, by rw [if_pos hp]⟩
      · rw [if_neg hp]; exact hi.cman x hx
    · exact ⟨m3, by rw [if_pos hcp]⟩
  · exact hi.shown
  · exact hi.held

theorem inv_acquire {s : State} {log : Log} (hi : Inv s log) (path : Path) (prevStr : Option Nat) :
    Inv (acquire s path prevStr) log := by
  have hm0 : ∀ x ∈ ((s.managers path).getD Manager.empty).slots,
      ∃ sl, s.heap x.2 = some sl ∧ sl.path = path ∧ sl.revision = x.1 := by
    cases hmp : s.managers path with
    | none => simp [Manager.empty]
    | some m0 => simpa using hi.mslots _ _ hmp
  unfold acquire
  simp only []
  split
  · rename_i p hp
    generalize hf2 : findRevision path _ s.heap s.nextRef p = f2
    obtain ⟨m2, h2, r2, pref⟩ := f2
    generalize hf3 : findRevision path _ _ _ (s.nextId + 1) = f3
    obtain ⟨m3, h3, r3, nref⟩ := f3
    simp only [] at hf3 ⊢
    obtain ⟨a1, a2, a3, a4, a5, a6⟩ := findRevision_spec path { ((s.managers path).getD Manager.empty) with locked := incrLock ((s.managers path).getD Manager.empty).locked ((s.managers path).getD Manager.empty).estimated } _ _ _ hi.refs hm0 hf2
    obtain ⟨b1, b2, b3, b4, b5, b6⟩ := findRevision_spec path _ _ _ _ a1 a2 hf3
    refine inv_add hi path (c := ⟨path, _, some p, _, s.nextId + 1, nref, false⟩) b1 b2
      (by rw [b3, a3]) (fun r sl h => b4 _ _ (a4 _ _ h)) ?_ b6 rfl rfl ?_
    · intro r sl hr
      rcases b5 r sl hr with h | h
      · exact a5 r sl h
      · exact Or.inr h
    · intro cached hc
      simp only [] at hc
      obtain ⟨sl, h1, h4, h5⟩ := a6
      rw [h1] at hc
      simp only [Option.bind_some] at hc
      rcases a5 _ _ h1 with h | h
      · obtain ⟨rep, hr1, hr2, hr3⟩ := hi.hdata _ _ _ h hc
        exact ⟨p, rep, rfl, hr1, by rw [hr2, h4], by rw [hr3, h5]⟩
      · rw [hc] at h; cases h
  · generalize hf3 : findRevision path _ _ _ (s.nextId + 1) = f3
    obtain ⟨m3, h3, r3, nref⟩ := f3
    simp only []
    obtain ⟨b1, b2, b3, b4, b5, b6⟩ := findRevision_spec path { ((s.managers path).getD Manager.empty) with locked := incrLock ((s.managers path).getD Manager.empty).locked ((s.managers path).getD Manager.empty).estimated } _ _ _ hi.refs hm0 hf3
    refine inv_add hi path (c := ⟨path, _, none, none, s.nextId + 1, nref, false⟩) b1 b2
      (by rw [b3]) b4 b5 b6 rfl rfl ?_
    intro cached hc
    simp at hc

theorem inv_respond {s : State} {log : Log} (hi : Inv s log) {h : Nat} {c : Ctx}
    (hc : (h, c) ∈ s.ctxs) (hr : c.responded = false) (toks : Toks) :
    ∃ s' rep, respond s h c toks = some (s', rep) ∧ Inv s' (log ++ [(toks, rep)]) := by
  obtain ⟨sl, h1, h2, h3, h4⟩ := hi.cslot _ hc
  simp only [] at h1 h2 h3 h4
  have h4 := h4 hr
  unfold respond
  rw [h1]
  simp only [h4]
  refine ⟨_, _, rfl, ?_⟩
  generalize hbody : replyBody c.prev toks = body
  have hdec : decode (clientAfter (log.map (·.2))).held
      { path := c.path, quoted := c.quoted, id := c.nextRev, body := body } = some (wire toks) := by
    subst hbody
    unfold decode replyBody
    cases hp : c.prev with
    | none => rfl
    | some cached =>
      obtain ⟨q, rep, hq, hl, hrp, hri⟩ := hi.cprev _ hc _ hp
      simp only [] at hq
      simp only [hq]
      have := hi.held _ hl
      simp only [hrp, hri] at this
      rw [this]
      simp [token_delta_roundtrip]
  have hrev : ∀ x ∈ s.ctxs, x.1 ≠ h → x.2.nextRev ≠ c.nextRev := by
    intro x hx hxh he
    have := nodup_map_inj hi.rnd hx hc he
    rw [this] at hxh
    exact hxh rfl
  have happ : ∀ (rep : Reply), (log ++ [(toks, rep)]).map (·.2) = log.map (·.2) ++ [rep] := by simp
  constructor
  · intro r sl' hsl
    simp only [setHeap] at hsl
    split at hsl
    · rename_i he; rw [he]; exact hi.refs _ _ h1
    · exact hi.refs _ _ hsl
  · intro p m hm x hx
    obtain ⟨sl', g1, g2, g3⟩ := hi.mslots p m hm x hx
    simp only [setHeap]
    split
    · rename_i he
      rw [he, h1] at g1
      simp only [Option.some.injEq] at g1
      exact ⟨_, rfl, by rw [← g2, ← g1], by rw [← g3, ← g1]⟩
    · exact ⟨sl', g1, g2, g3⟩
  · intro r sl' t hsl hd
    simp only [setHeap] at hsl
    split at hsl
    · simp only [Option.some.injEq] at hsl
      subst hsl
      simp only [Option.some.injEq] at hd
      subst hd
      exact ⟨_, List.mem_append_right _ (List.mem_singleton_self _), h2.symm, h3.symm⟩
    · obtain ⟨rep, g1, g2⟩ := hi.hdata _ _ _ hsl hd
      exact ⟨rep, by simp [g1], g2⟩
  · intro x hx
    obtain ⟨k, d⟩ := x
    obtain ⟨d0, hd0, hd⟩ := mark_mem hx
    simp only []
    by_cases hk : k = h
    · rw [if_pos hk] at hd
      have : (k, d0) = (h, c) := nodup_map_inj hi.hnd hd0 hc hk
      simp only [Prod.mk.injEq] at this
      subst hd
      rw [this.2]
      refine ⟨{ sl with data := some toks }, by simp [setHeap], h2, h3, by simp⟩
    · rw [if_neg hk] at hd
      subst hd
      obtain ⟨sl', g1, g2, g3, g4⟩ := hi.cslot _ hd0
      simp only [] at g1 g2 g3 g4
      have hne : d.nextRef ≠ c.nextRef := by
        intro he
        rw [he, h1] at g1
        simp only [Option.some.injEq] at g1
        subst g1
        exact hrev _ hd0 hk (by simp only []; rw [← g3, h3])
      refine ⟨sl', ?_, g2, g3, g4⟩
      simp only [setHeap]; rw [if_neg hne]; exact g1
  · intro x hx cached hcc
    obtain ⟨k, d⟩ := x
    obtain ⟨d0, hd0, hd⟩ := mark_mem hx
    have e1 : d.prev = d0.prev := by rw [hd]; split <;> rfl
    have e2 : d.quoted = d0.quoted := by rw [hd]; split <;> rfl
    have e3 : d.path = d0.path := by rw [hd]; split <;> rfl
    simp only [e1, e2, e3] at hcc ⊢
    obtain ⟨q, rep, g1, g2, g3, g4⟩ := hi.cprev _ hd0 cached hcc
    exact ⟨q, rep, g1, by simp [g2], g3, g4⟩
  · intro x hx
    obtain ⟨k, d⟩ := x
    obtain ⟨d0, hd0, hd⟩ := mark_mem hx
    have e1 : d.nextRev = d0.nextRev := by rw [hd]; split <;> rfl
    simp only [e1]
    exact hi.cids _ hd0
  · intro e he
    rw [List.mem_append, List.mem_singleton] at he
    rcases he with he | rfl
    · exact hi.lids e he
    · exact hi.cids _ hc
  · simp only []; rw [mark_keys]; exact hi.hnd
  · intro x hx
    obtain ⟨k, d⟩ := x
    obtain ⟨d0, hd0, hd⟩ := mark_mem hx
    exact hi.hlt (k, d0) hd0
  · simp only []; rw [mark_revs]; exact hi.rnd
  · intro x hx hresp e he
    obtain ⟨k, d⟩ := x
    obtain ⟨d0, hd0, hd⟩ := mark_mem hx
    simp only [] at hresp ⊢
    by_cases hk : k = h
    · rw [if_pos hk] at hd; rw [hd] at hresp; simp at hresp
    · rw [if_neg hk] at hd
      subst hd
      rw [List.mem_append, List.mem_singleton] at he
      rcases he with he | rfl
      · exact hi.fresh _ hd0 hresp e he
      · exact fun hc' => hrev _ hd0 hk hc'.symm
  · rw [List.map_append, List.nodup_append]
    refine ⟨hi.lnd, by simp, ?_⟩
    intro a ha b hb
    simp only [List.map_cons, List.map_nil, List.mem_singleton] at hb
    rw [List.mem_map] at ha
    obtain ⟨e, he, rfl⟩ := ha
    rw [hb]
    exact hi.fresh _ hc hr e he
  · exact hi.lockwf
  · intro p m hm e
    simp only []
    rw [holders_mark]
    exact hi.locks p m hm e
  · intro x hx
    obtain ⟨k, d⟩ := x
    obtain ⟨d0, hd0, hd⟩ := mark_mem hx
    have e1 : d.path = d0.path := by rw [hd]; split <;> rfl
    simp only [e1]
    exact hi.cman _ hd0
  · rw [happ]
    unfold clientAfter
    rw [List.foldl_append]
    change (receive (clientAfter (log.map (·.2))) _).shown = _
    unfold receive
    simp only [hdec]
    rw [hi.shown]
    simp
  · intro e he
    rw [happ]
    unfold clientAfter
    rw [List.foldl_append]
    change (receive (clientAfter (log.map (·.2))) _).held _ _ = _
    unfold receive
    simp only [hdec]
    rw [List.mem_append, List.mem_singleton] at he
    rcases he with he | rfl
    · rw [if_neg]
      · exact hi.held e he
      · rintro ⟨_, hid⟩
        exact hi.fresh _ hc hr e he hid
    · rw [if_pos ⟨rfl, rfl⟩]

theorem inv_release {s : State} {log : Log} (hi : Inv s log) {h : Nat} {c : Ctx}
    (hc : (h, c) ∈ s.ctxs) : ∃ s', release s h c = some s' ∧ Inv s' log := by
  obtain ⟨m, hm⟩ := hi.cman _ hc
  simp only [] at hm
  have hpos : 0 < lockN m.locked c.estimated := by
    rw [hi.locks _ _ hm]; exact holders_pos hc
  obtain ⟨r, b, hd, hwf, hcnt, -⟩ := decrLock_spec _ _ (hi.lockwf _ _ hm) hpos
  -- any manager with the decremented locks and a sublist of the slots is fine
  have key : ∀ slots' : List (Nat × Nat), (∀ x ∈ slots', x ∈ m.slots) →
      Inv { s with ctxs := s.ctxs.filter (fun p => p.1 ≠ h),
                   managers := set s.managers c.path (some { m with locked := r, slots := slots' }) } log := by
    intro slots' hsub
    have hmem : ∀ x ∈ s.ctxs.filter (fun p => p.1 ≠ h), x ∈ s.ctxs := fun x hx => (List.mem_filter.mp hx).1
    constructor
    · exact hi.refs
    · intro p m' hm' x hx
      simp only [set] at hm'
      split at hm'
      · rename_i hp
        simp only [Option.some.injEq] at hm'
        subst hm'
        rw [hp]
        exact hi.mslots _ _ hm x (hsub x hx)
      · exact hi.mslots p m' hm' x hx
    · exact hi.hdata
    · exact fun x hx => hi.cslot x (hmem x hx)
    · exact fun x hx => hi.cprev x (hmem x hx)
    · exact fun x hx => hi.cids x (hmem x hx)
    · exact hi.lids
    · exact hi.hnd.sublist (List.filter_sublist.map _)
    · exact fun x hx => hi.hlt x (hmem x hx)
    · exact hi.rnd.sublist (List.filter_sublist.map _)
    · exact fun x hx => hi.fresh x (hmem x hx)
    · exact hi.lnd
    · intro p m' hm'
      simp only [set] at hm'
      split at hm'
      · simp only [Option.some.injEq] at hm'
        subst hm'; exact hwf
      · exact hi.lockwf p m' hm'
    · intro p m' hm' e
      simp only [set] at hm'
      simp only []
      rw [holders_filter _ _ _ hi.hnd hc]
      split at hm'
      · rename_i hp
        simp only [Option.some.injEq] at hm'
        subst hm' hp
        rw [hcnt, hi.locks _ _ hm]
        simp
      · rename_i hp
        rw [if_neg (by simp [hp]), hi.locks p m' hm' e]; simp
    · intro x hx
      simp only [set]
      split
      · exact ⟨_, rfl⟩
      · exact hi.cman x (hmem x hx)
    · exact hi.shown
    · exact hi.held
  unfold release
  rw [hm]
  simp only [hd]
  cases b with
  | false => exact ⟨_, rfl, key m.slots (fun _ h => h)⟩
  | true =>
    simp only []
    refine ⟨_, rfl, key _ ?_⟩
    intro x hx
    split at hx
    · exact (List.mem_filter.mp hx).1
    · exact hx

/-- No event of the history is a cache clear. -/
def Op.isClear : Op → Bool
  | .clear => true
  | _ => false

theorem inv_step {s : State} {log : Log} (hi : Inv s log) (op : Op) (hop : op.isClear = false) :
    ∃ s' out, step s op = some (s', out) ∧ Inv s' (log ++ out.toList) := by
  cases op with
  | clear => simp [Op.isClear] at hop
  | acquire path prev => exact ⟨_, _, rfl, by simpa using inv_acquire hi path prev⟩
  | respond h toks =>
    simp only [step]
    split
    · exact ⟨_, _, rfl, by simpa using hi⟩
    · rename_i c hl
      split
      · exact ⟨_, _, rfl, by simpa using hi⟩
      · rename_i hr
        obtain ⟨s', rep, h1, h2⟩ := inv_respond hi (lookup_mem hl) (by simpa using hr) toks
        rw [h1]
        exact ⟨_, _, rfl, by simpa using h2⟩
  | release h =>
    simp only [step]
    split
    · exact ⟨_, _, rfl, by simpa using hi⟩
    · rename_i c hl
      obtain ⟨s', h1, h2⟩ := inv_release hi (lookup_mem hl)
      rw [h1]
      exact ⟨_, _, rfl, by simpa using h2⟩

theorem inv_run (ops : List Op) (hops : ∀ op ∈ ops, op.isClear = false) {s : State} {log : Log} (hi : Inv s log) :
    ∃ s' outs, run s ops = some (s', outs) ∧ Inv s' (log ++ outs) := by
  induction ops generalizing s log with
  | nil => exact ⟨s, [], rfl, by simpa using hi⟩
  | cons op ops ih =>
    obtain ⟨s1, out, h1, h2⟩ := inv_step hi op (hops op (by simp))
    obtain ⟨s2, outs, h3, h4⟩ := ih (fun o ho => hops o (by simp [ho])) h2
    unfold run
    rw [h1]
    simp only [h3]
    exact ⟨_, _, rfl, by simpa using h4⟩

end Tinymist.TokenCache
