import Verif.Lemmas.Server
import Verif.Lemmas.Util
namespace Tinymist.Server
variable {I V H : Type} [DecidableEq I]

theorem run_snoc (t : Table) (s : Lsp I V H) (a : List (Event I V H)) (e : Event I V H) :
    run t s (a ++ [e]) = (run t s a).bind fun s => step t s e := by
  rw [run_append]
  cases run t s a with
  | none => rfl
  | some s' =>
    simp only [Option.bind_some, run]
    cases step t s' e <;> rfl

section
omit [DecidableEq I]

theorem started_snoc (es : List (Event I V H)) (e : Event I V H) :
    Started (es ++ [e]) ↔ Started es ∨ ∃ r, e = .request r ∧ r.method = "initialize" ∧ r.paramsOk = true := by
  unfold Started
  constructor
  · rintro ⟨r, hm, h⟩
    rcases List.mem_append.mp hm with hm | hm
    · exact Or.inl ⟨r, hm, h⟩
    · exact Or.inr ⟨r, (List.mem_singleton.mp hm).symm, h⟩
  · rintro (⟨r, hm, h⟩ | ⟨r, rfl, h⟩)
    · exact ⟨r, List.mem_append_left _ hm, h⟩
    · exact ⟨r, by simp, h⟩

theorem split_snoc {α : Type} (es : List α) (e x : α) (P : List α → Prop) :
    (∃ a b, es ++ [e] = a ++ x :: b ∧ P a) ↔ (∃ a b, es = a ++ x :: b ∧ P a) ∨ (e = x ∧ P es) := by
  constructor
  · rintro ⟨a, b, h, hp⟩
    rcases List.eq_nil_or_concat b with rfl | ⟨b', y, rfl⟩
    · have := List.append_inj' h rfl
      exact Or.inr ⟨by simpa using this.2, this.1 ▸ hp⟩
    · have h' : es ++ [e] = (a ++ x :: b') ++ [y] := by simp [h]
      have := List.append_inj' h' rfl
      exact Or.inl ⟨a, b', this.1, hp⟩
  · rintro (⟨a, b, rfl, hp⟩ | ⟨rfl, hp⟩)
    · exact ⟨a, b ++ [e], by simp, hp⟩
    · exact ⟨es, [], rfl, hp⟩

theorem opened_snoc (es : List (Event I V H)) (e : Event I V H) :
    Opened (es ++ [e]) ↔ Opened es ∨ (e = .notification "initialized" ∧ Started es) :=
  split_snoc es e _ Started

theorem shutDown_snoc (es : List (Event I V H)) (e : Event I V H) :
    ShutDown (es ++ [e]) ↔ ShutDown es ∨ ∃ r, e = .request r ∧ r.method = "shutdown" ∧ Opened es := by
  unfold ShutDown
  constructor
  · rintro ⟨a, r, b, h, ho, hm⟩
    rcases (split_snoc es e (.request r) Opened).mp ⟨a, b, h, ho⟩ with ⟨a, b, h, ho⟩ | ⟨h, ho⟩
    · exact Or.inl ⟨a, r, b, h, ho, hm⟩
    · exact Or.inr ⟨r, h, hm, ho⟩
  · rintro (⟨a, r, b, h, ho, hm⟩ | ⟨r, h, hm, ho⟩)
    · obtain ⟨a, b, h, ho⟩ := (split_snoc es e (.request r) Opened).mpr (Or.inl ⟨a, b, h, ho⟩)
      exact ⟨a, r, b, h, ho, hm⟩
    · obtain ⟨a, b, h, ho⟩ := (split_snoc es e (.request r) Opened).mpr (Or.inr ⟨h, ho⟩)
      exact ⟨a, r, b, h, ho, hm⟩

theorem Opened.started {es : List (Event I V H)} : Opened es → Started es := by
  rintro ⟨a, b, rfl, r, hm, h⟩
  exact ⟨r, List.mem_append_left _ hm, h⟩

theorem ShutDown.opened {es : List (Event I V H)} : ShutDown es → Opened es := by
  rintro ⟨a, r, b, rfl, ⟨a', b', rfl, h⟩, -⟩
  exact ⟨a', b' ++ .request r :: b, by simp, h⟩

end

/-- The driver's phase is a function of what the client sent. -/
structure PhaseOf (p : Phase) (es : List (Event I V H)) : Prop where
  started : Started es ↔ p ≠ .uninitialized
  opened : Opened es ↔ p = .ready ∨ p = .shuttingDown
  shut : ShutDown es ↔ p = .shuttingDown

theorem phase_request (t : Table) (ht : t.requests "shutdown" = true) {s s' : Lsp I V H}
    {r : Request I V} (hr : onRequest t s r = some s') :
    s'.phase = match s.phase with
      | .uninitialized => if r.method = "initialize" ∧ r.paramsOk = true then .initializing else .uninitialized
      | .initializing => .initializing
      | .ready => if r.method = "shutdown" then .shuttingDown else .ready
      | .shuttingDown => .shuttingDown := by
  unfold onRequest at hr
  simp only [] at hr
  split at hr
  · rename_i hp
    split at hr
    · rename_i hm
      split at hr <;> cases hr <;> simp_all
    · cases hr; simp_all
  · cases hr; simp_all
  · rename_i hp
    split at hr
    · rename_i hm; cases hr; simp [hp, hm]
    · split at hr
      · rename_i hm
        cases hx : execCommand t (register s.q r.id) r with
        | none => rw [hx] at hr; cases hr
        | some p => rw [hx] at hr; cases hr; simp [hp, hm]
      · split at hr
        · cases hr; simp [hp]
        · rename_i hn
          have : r.method ≠ "shutdown" := by
            intro e; rw [e] at hn; exact hn ht
          cases hr; simp [hp, this]
  · cases hr; simp_all

theorem phaseOf (t : Table) (ht : t.requests "shutdown" = true) (es : List (Event I V H))
    {s : Lsp I V H} (hne : NoExit es) (hr : run t Lsp.init es = some s) : PhaseOf s.phase es := by
  induction es using Util.reverseInd generalizing s with
  | nil =>
    cases hr
    constructor <;> simp [Started, Opened, ShutDown, Lsp.init]
  | append_singleton es e ih =>
    rw [run_snoc] at hr
    cases hrun : run t Lsp.init es with
    | none => rw [hrun] at hr; cases hr
    | some s1 =>
      rw [hrun] at hr
      have hne1 : NoExit es := fun h => hne (List.mem_append_left _ h)
      have hx1 := not_exited t (s := Lsp.init) rfl hne1 hrun
      have ih := ih hne1 hrun
      have h1 := ih.started
      have h2 := ih.opened
      have h3 := ih.shut
      have hst : step t s1 e = some s := hr
      cases e with
      | request r =>
        simp only [step, hx1] at hst
        have hp := phase_request t ht hst
        constructor
        · rw [started_snoc, hp, h1]; cases s1.phase <;> grind
        · rw [opened_snoc, hp, h2]; cases s1.phase <;> grind
        · rw [shutDown_snoc, hp, h3, h2]; cases s1.phase <;> grind
      | notification m =>
        simp only [step, hx1] at hst
        cases hst
        have hp : (onNotification t s1 m).phase =
            if m = "initialized" ∧ s1.phase = .initializing then .ready else s1.phase := rfl
        simp only [Bool.false_eq_true, if_false]
        constructor
        · rw [started_snoc, hp, h1]; cases s1.phase <;> grind
        · rw [opened_snoc, hp, h2, h1]; cases s1.phase <;> grind
        · rw [shutDown_snoc, hp, h3]; cases s1.phase <;> grind
      | response id =>
        simp only [step, hx1] at hst
        cases hst
        have hp : (onResponse s1 id).phase = s1.phase := by
          unfold onResponse; split
          · split <;> rfl
          · rfl
        simp only [Bool.false_eq_true, if_false]
        constructor
        · rw [started_snoc, hp, h1]; grind
        · rw [opened_snoc, hp, h2]; grind
        · rw [shutDown_snoc, hp, h3]; grind
      | complete id r =>
        simp only [step] at hst
        cases hst
        constructor
        · rw [started_snoc, h1]; grind
        · rw [opened_snoc, h2]; grind
        · rw [shutDown_snoc, h3]; grind
      | cancel id =>
        simp only [step] at hst
        cases hst
        constructor
        · rw [started_snoc, h1]; grind
        · rw [opened_snoc, h2]; grind
        · rw [shutDown_snoc, h3]; grind
      | send hnd =>
        simp only [step] at hst
        cases hst
        constructor
        · rw [started_snoc, h1]; exact (by simp [sendRequest])
        · rw [opened_snoc, h2]; exact (by simp [sendRequest])
        · rw [shutDown_snoc, h3]; exact (by simp [sendRequest])

theorem refuse_eq {q : Queue I V} {id : I} (hp : id ∉ q.pending) (e : Err) :
    finish (register q id) id (.done (.err e)) = { q with sent := q.sent ++ [(id, .err e)] } := by
  show respond (register q id) id (.err e) = _
  unfold register
  rw [if_neg hp]
  unfold respond
  rw [if_pos (by simp)]
  simp

/-! ## Outgoing requests -/

structure OutInv (s : Lsp I V H) : Prop where
  next : s.nextOut = Int.bmod (s.issued.length : Int) (2 ^ 32)
  ids : s.issued.map Prod.fst =
    (List.range s.issued.length).map fun k : Nat => Int.bmod (k : Int) (2 ^ 32)
  pend : ∀ p ∈ s.outPending, p ∈ s.issued
  ran : ∀ p ∈ s.ran, p ∈ s.issued
  ndRan : (s.ran.map Prod.fst).Nodup
  disj : ∀ p ∈ s.outPending, p.1 ∉ s.ran.map Prod.fst
  cover : ∀ p ∈ s.issued, p ∈ s.outPending ∨ p ∈ s.ran

theorem bmod_inj {a b : Nat} (ha : a < 2 ^ 32) (hb : b < 2 ^ 32)
    (h : Int.bmod (a : Int) (2 ^ 32) = Int.bmod (b : Int) (2 ^ 32)) : a = b := by
  have := congrArg (fun x => x % ((2 ^ 32 : Nat) : Int)) h
  simp only [Int.bmod_emod] at this
  omega

theorem bmod_succ (n : Nat) :
    Int.bmod (Int.bmod (n : Int) (2 ^ 32) + 1) (2 ^ 32) = Int.bmod ((n + 1 : Nat) : Int) (2 ^ 32) := by
  rw [Int.bmod_add_bmod]; simp

/-- The outgoing part of the state is untouched by everything but `send` and `response`. -/
theorem out_request (t : Table) {s s' : Lsp I V H} {r : Request I V} (hr : onRequest t s r = some s') :
    s'.nextOut = s.nextOut ∧ s'.outPending = s.outPending ∧ s'.issued = s.issued ∧ s'.ran = s.ran := by
  unfold onRequest at hr
  simp only [] at hr
  repeat' split at hr
  all_goals first
    | (cases hr; exact ⟨rfl, rfl, rfl, rfl⟩)
    | (cases hx : execCommand t (register s.q r.id) r with
        | none => rw [hx] at hr; cases hr
        | some p => rw [hx] at hr; cases hr; exact ⟨rfl, rfl, rfl, rfl⟩)

theorem issued_nodup {s : Lsp I V H} (h : OutInv s) (hb : s.issued.length ≤ 2 ^ 32) :
    (s.issued.map Prod.fst).Nodup := by
  rw [h.ids]
  refine Util.nodup_map_on List.nodup_range ?_
  intro a ha b hb' e
  rw [List.mem_range] at ha hb'
  exact bmod_inj (by omega) (by omega) e

theorem issued_unique {s : Lsp I V H} (h : OutInv s) (hb : s.issued.length ≤ 2 ^ 32) {p p' : Int × H}
    (hp : p ∈ s.issued) (hp' : p' ∈ s.issued) (e : p.1 = p'.1) : p = p' :=
  Util.eq_of_nodup_map (issued_nodup h hb) hp hp' e

theorem out_send {s : Lsp I V H} (h : OutInv s) (hnd : H) (hb : s.issued.length < 2 ^ 32) :
    OutInv (sendRequest s hnd) := by
  have fresh : s.nextOut ∉ s.issued.map Prod.fst := by
    rw [h.ids, h.next]
    intro hm
    obtain ⟨k, hk, e⟩ := List.mem_map.mp hm
    rw [List.mem_range] at hk
    have := bmod_inj (by omega) hb e
    omega
  refine ⟨?_, ?_, ?_, ?_, ?_, ?_, ?_⟩
  · simp only [sendRequest, h.next, List.length_append, List.length_cons, List.length_nil]
    exact bmod_succ _
  · simp only [sendRequest, List.map_append, List.map_cons, List.map_nil, List.length_append,
      List.length_cons, List.length_nil, List.range_succ, h.ids, ← h.next]
  · intro p hp
    simp only [sendRequest, List.mem_cons, List.mem_filter, List.mem_append, List.not_mem_nil, or_false] at hp ⊢
    rcases hp with rfl | hp
    · exact Or.inr rfl
    · exact Or.inl (h.pend p hp.1)
  · intro p hp; exact List.mem_append_left _ (h.ran p hp)
  · exact h.ndRan
  · intro p hp
    simp only [sendRequest, List.mem_cons, List.mem_filter] at hp
    rcases hp with rfl | hp
    · intro hm
      obtain ⟨p, hp, e⟩ := List.mem_map.mp hm
      exact fresh (List.mem_map.mpr ⟨p, h.ran p hp, e⟩)
    · exact h.disj p hp.1
  · intro p hp
    simp only [sendRequest, List.mem_cons, List.mem_filter, List.mem_append, List.not_mem_nil, or_false] at hp ⊢
    rcases hp with hp | rfl
    · have hne : p.1 ≠ s.nextOut := fun e => fresh (e ▸ List.mem_map_of_mem hp)
      rcases h.cover p hp with h' | h'
      · exact Or.inl (Or.inr ⟨h', by simpa using hne⟩)
      · exact Or.inr h'
    · exact Or.inl (Or.inl rfl)

theorem out_response {s : Lsp I V H} (h : OutInv s) (id : Int) (hb : s.issued.length ≤ 2 ^ 32) :
    OutInv (onResponse s id) := by
  unfold onResponse
  split
  · split
    · exact h
    · rename_i p hf
      have hp := List.mem_of_find?_eq_some hf
      have he : p.1 = id := by have := List.find?_some hf; simpa using this
      refine ⟨h.next, h.ids, ?_, ?_, ?_, ?_, ?_⟩
      · intro p' hp'; exact h.pend p' (List.mem_filter.mp hp').1
      · intro p' hp'
        rcases List.mem_append.mp hp' with h' | h'
        · exact h.ran p' h'
        · rw [List.mem_singleton.mp h']; exact h.pend p hp
      · simp only [List.map_append, List.map_cons, List.map_nil]
        refine List.nodup_append.mpr ⟨h.ndRan, by simp, ?_⟩
        intro a ha b hb' e
        rw [List.mem_singleton.mp hb'] at e
        exact h.disj p hp (e ▸ ha)
      · intro p' hp'
        obtain ⟨h1, h2⟩ := List.mem_filter.mp hp'
        have h2 : p'.1 ≠ id := by simpa using h2
        simp only [List.map_append, List.map_cons, List.map_nil, List.mem_append, List.mem_singleton, not_or]
        exact ⟨h.disj p' h1, fun e => h2 (e.trans he)⟩
      · intro p' hp'
        rcases h.cover p' hp' with h' | h'
        · by_cases e : p'.1 = id
          · have : p' = p := issued_unique h hb hp' (h.pend p hp) (e.trans he.symm)
            exact Or.inr (by simp [this])
          · exact Or.inl (List.mem_filter.mpr ⟨h', by simpa using e⟩)
        · exact Or.inr (List.mem_append_left _ h')
  · exact h

theorem OutInv.congr {s s' : Lsp I V H} (h : OutInv s) (h1 : s'.nextOut = s.nextOut)
    (h2 : s'.outPending = s.outPending) (h3 : s'.issued = s.issued) (h4 : s'.ran = s.ran) : OutInv s' := by
  refine ⟨?_, ?_, ?_, ?_, ?_, ?_, ?_⟩ <;> simp only [h1, h2, h3, h4]
  · exact h.next
  · exact h.ids
  · exact h.pend
  · exact h.ran
  · exact h.ndRan
  · exact h.disj
  · exact h.cover

theorem sends_append (a b : List (Event I V H)) : sends (a ++ b) = sends a + sends b := by
  induction a with
  | nil => simp [sends]
  | cons e es ih => cases e <;> simp [sends, ih] <;> omega

theorem onResponse_issued (s : Lsp I V H) (id : Int) : (onResponse s id).issued = s.issued := by
  unfold onResponse; split
  · split <;> rfl
  · rfl

theorem out_run (t : Table) {es : List (Event I V H)} {s : Lsp I V H} (hb : sends es ≤ 2 ^ 32)
    (hr : run t Lsp.init es = some s) : OutInv s ∧ s.issued.length = sends es := by
  induction es using Util.reverseInd generalizing s with
  | nil => cases hr; exact ⟨by constructor <;> simp [Lsp.init], rfl⟩
  | append_singleton es e ih =>
    rw [run_snoc] at hr
    rw [sends_append] at hb ⊢
    cases hrun : run t Lsp.init es with
    | none => rw [hrun] at hr; cases hr
    | some s1 =>
      rw [hrun] at hr
      obtain ⟨h, hl⟩ := ih (by omega) hrun
      have hst : step t s1 e = some s := hr
      cases e with
      | request r =>
        simp only [step] at hst
        split at hst
        · cases hst; exact ⟨h, hl⟩
        · obtain ⟨h1, h2, h3, h4⟩ := out_request t hst
          exact ⟨h.congr h1 h2 h3 h4, by rw [h3]; exact hl⟩
      | notification m =>
        simp only [step] at hst; cases hst
        split
        · exact ⟨h, hl⟩
        · exact ⟨h.congr rfl rfl rfl rfl, hl⟩
      | response id =>
        simp only [step] at hst; cases hst
        split
        · exact ⟨h, hl⟩
        · exact ⟨out_response h id (by omega), by rw [onResponse_issued]; exact hl⟩
      | complete id r => simp only [step] at hst; cases hst; exact ⟨h.congr rfl rfl rfl rfl, hl⟩
      | cancel id => simp only [step] at hst; cases hst; exact ⟨h.congr rfl rfl rfl rfl, hl⟩
      | send hnd =>
        simp only [step] at hst; cases hst
        simp only [sends] at hb
        exact ⟨out_send h hnd (by omega), by simp [sendRequest, sends, hl]⟩

/-! ## The debug adapter -/

theorem dap_served (t : Table) {s : Dap V} {r : Request Int V} (h : QInv s.q)
    (hs : seqToId r.id ∉ s.q.sent.map Prod.fst) :
    Served s.q (s.onRequest t r).q (seqToId r.id) (Deferred r) := by
  have refuse : ∀ e, Served s.q (finish (register s.q (seqToId r.id)) (seqToId r.id) (.done (.err e)))
      (seqToId r.id) (Deferred r) := fun e => served_finish h hs _ _ (by intro h; cases h)
  unfold Dap.onRequest
  simp only []
  split
  · split
    · split
      · refine served_finish h hs _ _ ?_
        intro e
        cases ha : r.act <;> simp_all [actResp, Deferred]
      · exact refuse _
    · exact refuse _
  · exact refuse _
  · split
    · exact refuse _
    · split
      · exact served_act h hs r.act
      · exact refuse _
  · exact refuse _

theorem dap_running (t : Table) (s : Dap V) (r : Request Int V) :
    (s.onRequest t r).q.running = s.q.running ∨
    (s.onRequest t r).q.running = seqToId r.id :: s.q.running := by
  have fin := fun resp => running_finish (register s.q (seqToId r.id)) (seqToId r.id) (resp : Resp V)
  unfold Dap.onRequest
  simp only []
  split
  · split
    · split <;> exact fin _
    · exact fin _
  · exact fin _
  · split
    · exact fin _
    · split
      · exact running_act (register s.q (seqToId r.id)) (seqToId r.id) r.act
      · exact fin _
  · exact fin _

structure DInv (s : Dap V) (used : List Int) : Prop where
  qinv : QInv s.q
  sentUsed : ∀ id ∈ s.q.sent.map Prod.fst, id ∈ used
  pendUsed : ∀ id ∈ s.q.pending, id ∈ used
  pendRunning : ∀ id ∈ s.q.pending, id ∈ s.q.running
  runUsed : ∀ id ∈ s.q.running, id ∈ used
  ndRun : s.q.running.Nodup

theorem dinv_request (t : Table) {s : Dap V} {used : List Int} (h : DInv s used) {r : Request Int V}
    (hf : seqToId r.id ∉ used) : DInv (s.onRequest t r) (seqToId r.id :: used) := by
  have sv := dap_served t h.qinv (r := r) (fun hm => hf (h.sentUsed _ hm))
  have rr := dap_running t s r
  refine ⟨sv.inv, ?_, ?_, ?_, ?_, ?_⟩
  · intro i hi
    rcases sv.sentMem i hi with h' | h'
    · exact List.mem_cons_of_mem _ (h.sentUsed i h')
    · simp [h']
  · intro i hi
    by_cases e : i = seqToId r.id
    · simp [e]
    · exact List.mem_cons_of_mem _ (h.pendUsed i ((sv.pend i e).mp hi))
  · intro i hi
    by_cases e : i = seqToId r.id
    · subst e
      rcases sv.outcome with h' | h'
      · exact absurd h' (sv.inv.disj _ hi)
      · exact h'.2.2
    · exact (sv.run i e).mpr (h.pendRunning i ((sv.pend i e).mp hi))
  · intro i hi
    rcases rr with rr | rr <;> rw [rr] at hi
    · exact List.mem_cons_of_mem _ (h.runUsed i hi)
    · rcases List.mem_cons.mp hi with rfl | hi
      · simp
      · exact List.mem_cons_of_mem _ (h.runUsed i hi)
  · rcases rr with rr | rr <;> rw [rr]
    · exact h.ndRun
    · exact List.nodup_cons.mpr ⟨fun hm => hf (h.runUsed _ hm), h.ndRun⟩

theorem dinv_complete {s : Dap V} {used : List Int} (h : DInv s used) (seq : Int) (r : Reply V) :
    DInv { s with q := complete s.q (seqToId seq) r } used := by
  unfold complete
  split
  · have hq : QInv { s.q with running := s.q.running.erase (seqToId seq) } :=
      ⟨h.qinv.ndPending, h.qinv.ndSent, h.qinv.disj⟩
    refine ⟨respond_inv hq _ _, ?_, ?_, ?_, ?_, ?_⟩
    · intro i hi
      rcases (respond_sent_mem _ _ _).mp hi with h' | h'
      · exact h.sentUsed i h'
      · exact h.pendUsed i (h'.1 ▸ h'.2)
    · intro i hi; exact h.pendUsed i ((respond_pending hq _ _ _).mp hi).1
    · intro i hi
      have := (respond_pending hq _ _ _).mp hi
      rw [respond_running]
      exact (List.Nodup.mem_erase_iff h.ndRun).mpr ⟨this.2, h.pendRunning i this.1⟩
    · intro i hi
      rw [respond_running] at hi
      exact h.runUsed i (List.mem_of_mem_erase hi)
    · rw [respond_running]; exact h.ndRun.erase _
  · exact h

theorem dinv_run (t : Table) {es : List (DapEvent V)} {s : Dap V} {used : List Int}
    (h : DInv s used) (hd : ((seqs es).map seqToId).Nodup) (hu : ∀ q ∈ seqs es, seqToId q ∉ used) :
    DInv (s.run t es) (((seqs es).map seqToId).reverse ++ used) := by
  induction es generalizing s used with
  | nil => exact h
  | cons e es ih =>
    cases e with
    | request r =>
      simp only [seqs, List.map_cons, List.nodup_cons] at hd
      have h1 := dinv_request t h (hu r.id (by simp [seqs]))
      have := ih h1 hd.2 (by
        intro q hq hm
        rcases List.mem_cons.mp hm with e | hm
        · exact hd.1 (e ▸ List.mem_map_of_mem hq)
        · exact hu q (by simp [seqs, hq]) hm)
      simpa [seqs, Dap.run, Dap.step] using this
    | complete seq r =>
      have := ih (dinv_complete h seq r) hd hu
      simpa [seqs, Dap.run, Dap.step] using this

theorem dinv_init : DInv (Dap.init : Dap V) [] := by
  refine ⟨⟨?_, ?_, ?_⟩, ?_, ?_, ?_, ?_, ?_⟩ <;> simp [Dap.init, Queue.init]

/-- Answers of the debug adapter are never retracted, and a pending number is answered when its future
completes. -/
theorem dap_settled (t : Table) {es : List (DapEvent V)} {s : Dap V} {used : List Int}
    (h : DInv s used) (hd : ((seqs es).map seqToId).Nodup) (hu : ∀ q ∈ seqs es, seqToId q ∉ used)
    {id : Int} (hp : id ∈ s.q.pending ∨ id ∈ s.q.sent.map Prod.fst)
    (hev : id ∈ s.q.sent.map Prod.fst ∨ ∃ q r, seqToId q = id ∧ DapEvent.complete q r ∈ es) :
    id ∈ (s.run t es).q.sent.map Prod.fst := by
  induction es generalizing s used with
  | nil =>
    rcases hev with h | ⟨_, _, _, h⟩
    · exact h
    · simp at h
  | cons e es ih =>
    cases e with
    | request r =>
      simp only [seqs, List.map_cons, List.nodup_cons] at hd
      have hf := hu r.id (by simp [seqs])
      have h1 := dinv_request t h hf
      have sv := dap_served t h.qinv (r := r) (fun hm => hf (h.sentUsed _ hm))
      obtain ⟨l, el⟩ := sv.pre
      have keep : id ∈ s.q.sent.map Prod.fst → id ∈ (s.onRequest t r).q.sent.map Prod.fst := by
        intro hm; rw [el, List.map_append]; exact List.mem_append_left _ hm
      refine ih h1 hd.2 ?_ ?_ ?_
      · intro q hq hm
        rcases List.mem_cons.mp hm with e | hm
        · exact hd.1 (e ▸ List.mem_map_of_mem hq)
        · exact hu q (by simp [seqs, hq]) hm
      · rcases hp with hp | hp
        · have : id ≠ seqToId r.id := fun e => hf (e ▸ h.pendUsed _ hp)
          exact Or.inl ((sv.pend id this).mpr hp)
        · exact Or.inr (keep hp)
      · rcases hev with hev | ⟨q, rr, e, hev⟩
        · exact Or.inl (keep hev)
        · rcases List.mem_cons.mp hev with he | he
          · cases he
          · exact Or.inr ⟨q, rr, e, he⟩
    | complete seq r =>
      have hq : QInv { s.q with running := s.q.running.erase (seqToId seq) } :=
        ⟨h.qinv.ndPending, h.qinv.ndSent, h.qinv.disj⟩
      have keep : id ∈ s.q.sent.map Prod.fst → id ∈ (complete s.q (seqToId seq) r).sent.map Prod.fst := by
        intro hm; unfold complete; split
        · exact (respond_sent_mem _ _ _).mpr (Or.inl hm)
        · exact hm
      refine ih (dinv_complete h seq r) hd hu ?_ ?_
      · rcases hp with hp | hp
        · show id ∈ (complete s.q (seqToId seq) r).pending ∨ id ∈ (complete s.q (seqToId seq) r).sent.map Prod.fst
          unfold complete; split
          · exact respond_keeps hq _ _ _ hp
          · exact Or.inl hp
        · exact Or.inr (keep hp)
      · rcases hev with hev | ⟨q, rr, e, hev⟩
        · exact Or.inl (keep hev)
        · rcases List.mem_cons.mp hev with he | he
          · rcases hp with hp | hp
            · injection he with he1 he2
              subst he1 he2 e
              left
              show seqToId q ∈ (complete s.q (seqToId q) rr).sent.map Prod.fst
              unfold complete
              rw [if_pos (h.pendRunning _ hp)]
              exact (respond_sent_mem _ _ _).mpr (Or.inr ⟨rfl, hp⟩)
            · exact Or.inl (keep hp)
          · exact Or.inr ⟨q, rr, e, he⟩

theorem seqs_append (a b : List (DapEvent V)) : seqs (a ++ b) = seqs a ++ seqs b := by
  induction a with
  | nil => rfl
  | cons e es ih => cases e <;> simp [seqs, ih]

end Tinymist.Server
