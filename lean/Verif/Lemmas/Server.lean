import Verif.Spec.Server
namespace Tinymist.Server
variable {I V H : Type} [DecidableEq I]

/-! ## The queue -/

/-- Book-keeping invariant: answered and pending ids are disjoint and duplicate free. -/
structure QInv (q : Queue I V) : Prop where
  ndPending : q.pending.Nodup
  ndSent : (q.sent.map Prod.fst).Nodup
  disj : ∀ id ∈ q.pending, id ∉ q.sent.map Prod.fst

/-- `q'` has forgotten nothing of `q` as far as `id` is concerned: answers stay, a pending id stays
pending or is answered. -/
structure Later (q q' : Queue I V) : Prop where
  sent : ∃ l, q'.sent = q.sent ++ l
  known : ∀ id, id ∈ q'.pending ∨ id ∈ q'.sent.map Prod.fst → id ∈ q.pending ∨ id ∈ q.sent.map Prod.fst
  keeps : ∀ id, id ∈ q.pending → id ∈ q'.pending ∨ id ∈ q'.sent.map Prod.fst

theorem respond_inv {q : Queue I V} (h : QInv q) (id : I) (r : Reply V) : QInv (respond q id r) := by
  unfold respond
  split
  · rename_i hm
    refine ⟨h.ndPending.erase _, ?_, ?_⟩
    · simp only [List.map_append, List.map_cons, List.map_nil]
      refine List.nodup_append.mpr ⟨h.ndSent, by simp, ?_⟩
      intro a ha b hb
      simp only [List.mem_singleton] at hb
      subst hb
      exact fun e => h.disj b hm (e ▸ ha)
    · intro a ha
      have ha' := (List.Nodup.mem_erase_iff h.ndPending).mp ha
      simp only [List.map_append, List.map_cons, List.map_nil, List.mem_append, List.mem_singleton, not_or]
      exact ⟨h.disj a ha'.2, ha'.1⟩
  · exact h

theorem respond_pending {q : Queue I V} (h : QInv q) (id : I) (r : Reply V) (x : I) :
    x ∈ (respond q id r).pending ↔ x ∈ q.pending ∧ x ≠ id := by
  unfold respond
  split
  · simp only [List.Nodup.mem_erase_iff h.ndPending]; exact And.comm
  · rename_i hn
    exact ⟨fun hx => ⟨hx, fun e => hn (e ▸ hx)⟩, And.left⟩

theorem respond_running {q : Queue I V} (id : I) (r : Reply V) :
    (respond q id r).running = q.running := by
  unfold respond; split <;> rfl

theorem respond_sent_mem {q : Queue I V} (id : I) (r : Reply V) (x : I) :
    x ∈ (respond q id r).sent.map Prod.fst ↔ x ∈ q.sent.map Prod.fst ∨ (x = id ∧ id ∈ q.pending) := by
  unfold respond
  split
  · rename_i h; simp [h]
  · rename_i h; simp [h]

theorem respond_sent_of_pending {q : Queue I V} {id : I} (h : id ∈ q.pending) (r : Reply V) :
    (respond q id r).sent = q.sent ++ [(id, r)] := by
  unfold respond; rw [if_pos h]

theorem respond_sent_prefix (q : Queue I V) (id : I) (r : Reply V) :
    ∃ l, (respond q id r).sent = q.sent ++ l := by
  unfold respond; split
  · exact ⟨_, rfl⟩
  · exact ⟨[], by simp⟩

theorem register_inv {q : Queue I V} (h : QInv q) {id : I} (hs : id ∉ q.sent.map Prod.fst) :
    QInv (register q id) := by
  unfold register
  split
  · exact h
  · rename_i hn
    refine ⟨List.nodup_cons.mpr ⟨hn, h.ndPending⟩, h.ndSent, ?_⟩
    intro a ha
    rcases List.mem_cons.mp ha with rfl | ha
    · exact hs
    · exact h.disj a ha

theorem register_pending (q : Queue I V) (id x : I) :
    x ∈ (register q id).pending ↔ x = id ∨ x ∈ q.pending := by
  unfold register; split
  · rename_i h; constructor
    · exact Or.inr
    · rintro (rfl | h') <;> assumption
  · simp

/-- What serving one request does to the queue: the id gets an answer, or is pending and running. -/
structure Served (q q' : Queue I V) (id : I) (deferred : Prop) : Prop where
  inv : QInv q'
  pre : ∃ l, q'.sent = q.sent ++ l
  sentMem : ∀ x, x ∈ q'.sent.map Prod.fst → x ∈ q.sent.map Prod.fst ∨ x = id
  pend : ∀ x, x ≠ id → (x ∈ q'.pending ↔ x ∈ q.pending)
  run : ∀ x, x ≠ id → (x ∈ q'.running ↔ x ∈ q.running)
  outcome : id ∈ q'.sent.map Prod.fst ∨ (deferred ∧ id ∈ q'.pending ∧ id ∈ q'.running)
  cnt : ∀ x, x ∈ q.running → x ∈ q'.running

variable {q : Queue I V}

theorem served_respond (h : QInv q) {id : I} (hs : id ∉ q.sent.map Prod.fst) (r : Reply V) (d : Prop) :
    Served q (respond (register q id) id r) id d := by
  have hi := register_inv h hs
  have hp : id ∈ (register q id).pending := (register_pending q id id).mpr (Or.inl rfl)
  refine ⟨respond_inv hi _ _, ⟨[(id, r)], respond_sent_of_pending hp r⟩, ?_, ?_, ?_, ?_, ?_⟩
  · intro x hx
    rcases (respond_sent_mem _ _ _).mp hx with h | h
    · exact Or.inl h
    · exact Or.inr h.1
  · intro x hx
    rw [respond_pending hi, register_pending]
    simp [hx]
  · intro x hx; rw [respond_running]; rfl
  · exact Or.inl ((respond_sent_mem _ _ _).mpr (Or.inr ⟨rfl, hp⟩))
  · intro x hx; rw [respond_running]; exact hx

theorem served_future (h : QInv q) {id : I} (hs : id ∉ q.sent.map Prod.fst) (d : Prop) (hd : d) :
    Served q { register q id with running := id :: (register q id).running } id d := by
  have hi := register_inv h hs
  have hp : id ∈ (register q id).pending := (register_pending q id id).mpr (Or.inl rfl)
  refine ⟨⟨hi.ndPending, hi.ndSent, hi.disj⟩, ⟨[], by simp [register]⟩, ?_, ?_, ?_, ?_, ?_⟩
  · intro x hx; exact Or.inl hx
  · intro x hx; simp only [register_pending]; simp [hx]
  · intro x hx; simp [hx, register]
  · exact Or.inr ⟨hd, hp, by simp⟩
  · intro x hx; exact List.mem_cons_of_mem _ hx

theorem respond_noop_after {q : Queue I V} {id : I} (h : id ∉ q.pending) (r : Reply V) :
    respond q id r = q := by unfold respond; rw [if_neg h]

theorem served_finish (h : QInv q) {id : I} (hs : id ∉ q.sent.map Prod.fst) (resp : Resp V) (d : Prop)
    (hd : resp = .future → d) : Served q (finish (register q id) id resp) id d := by
  cases resp with
  | reject e => exact served_respond h hs _ d
  | done r => exact served_respond h hs _ d
  | future => exact served_future h hs d (hd rfl)

theorem served_act (h : QInv q) {id : I} (hs : id ∉ q.sent.map Prod.fst) (a : Act V) :
    Served q (scheduleTail (runAct (register q id) id a).1 id (runAct (register q id) id a).2) id
      (a = .sched .future) := by
  cases a with
  | badParams => exact served_respond h hs _ _
  | okNone => exact served_respond h hs _ _
  | sched r => exact served_finish h hs r _ (fun e => by rw [e])

theorem reschedule_eq (q : Queue I V) (id : I) (sc : Sched) :
    reschedule q id sc = scheduleTail q id sc := by
  cases sc <;> rfl

theorem served_exec (t : Table) {r : Request I V} (h : QInv q) (hs : r.id ∉ q.sent.map Prod.fst)
    {p : Queue I V × Sched} (hp : execCommand t (register q r.id) r = some p) :
    Served q (reschedule p.1 r.id p.2) r.id (Deferred r) := by
  rw [reschedule_eq]
  have hact := served_act h hs r.act
  unfold execCommand at hp
  split at hp
  · cases hp; exact served_respond h hs _ _
  · split at hp
    · split at hp
      · cases hp
      · cases hp; exact served_respond h hs _ _
      · cases hp; exact served_respond h hs _ _
      · cases hp; exact hact
    · split at hp
      · cases hp; exact hact
      · cases hp; exact served_respond h hs _ _

theorem served_request (t : Table) {s s' : Lsp I V H} {r : Request I V} (h : QInv s.q)
    (hs : r.id ∉ s.q.sent.map Prod.fst) (hr : onRequest t s r = some s') :
    Served s.q s'.q r.id (Deferred r) := by
  have refuse : ∀ e, Served s.q (finish (register s.q r.id) r.id (.done (.err e))) r.id (Deferred r) :=
    fun e => served_finish h hs _ _ (by intro h; cases h)
  unfold onRequest at hr
  simp only [] at hr
  split at hr
  · split at hr
    · split at hr
      · cases hr
        refine served_finish h hs _ _ ?_
        intro e
        cases ha : r.act <;> simp_all [actResp, Deferred]
      · cases hr; exact refuse _
    · cases hr; exact refuse _
  · cases hr; exact refuse _
  · split at hr
    · cases hr; exact refuse _
    · split at hr
      · cases hx : execCommand t (register s.q r.id) r with
        | none => rw [hx] at hr; cases hr
        | some p => rw [hx] at hr; cases hr; exact served_exec t h hs hx
      · split at hr
        · cases hr; exact served_act h hs r.act
        · cases hr; exact refuse _
  · cases hr; exact refuse _

/-! ## Histories -/

/-- Invariant of a history in which request ids are distinct. -/
structure Inv (s : Lsp I V H) (used : List I) : Prop where
  qinv : QInv s.q
  sentUsed : ∀ id ∈ answered s, id ∈ used
  pendUsed : ∀ id ∈ s.q.pending, id ∈ used
  pendRunning : ∀ id ∈ s.q.pending, id ∈ s.q.running
  runUsed : ∀ id ∈ s.q.running, id ∈ used
  ndRun : s.q.running.Nodup

theorem onNotification_q (t : Table) (s : Lsp I V H) (m : String) : (onNotification t s m).q = s.q := rfl

theorem onResponse_q (s : Lsp I V H) (id : Int) : (onResponse s id).q = s.q := by
  unfold onResponse; split
  · split <;> rfl
  · rfl

theorem running_finish (q : Queue I V) (id : I) (resp : Resp V) :
    (finish q id resp).running = q.running ∨ (finish q id resp).running = id :: q.running := by
  cases resp with
  | reject e => exact Or.inl (respond_running _ _)
  | done r => exact Or.inl (respond_running _ _)
  | future => exact Or.inr rfl

theorem running_act (q : Queue I V) (id : I) (a : Act V) :
    (scheduleTail (runAct q id a).1 id (runAct q id a).2).running = q.running ∨
    (scheduleTail (runAct q id a).1 id (runAct q id a).2).running = id :: q.running := by
  cases a with
  | badParams => exact Or.inl (respond_running _ _)
  | okNone => exact Or.inl (respond_running _ _)
  | sched r => exact running_finish q id r

theorem running_request (t : Table) {s s' : Lsp I V H} {r : Request I V}
    (hr : onRequest t s r = some s') :
    s'.q.running = s.q.running ∨ s'.q.running = r.id :: s.q.running := by
  have fin := fun resp => running_finish (register s.q r.id) r.id (resp : Resp V)
  unfold onRequest at hr
  simp only [] at hr
  split at hr
  · split at hr
    · split at hr
      · cases hr; exact fin _
      · cases hr; exact fin _
    · cases hr; exact fin _
  · cases hr; exact fin _
  · split at hr
    · cases hr; exact fin _
    · split at hr
      · cases hx : execCommand t (register s.q r.id) r with
        | none => rw [hx] at hr; cases hr
        | some p =>
          rw [hx] at hr; cases hr
          simp only [reschedule_eq]
          have hact := running_act (register s.q r.id) r.id r.act
          unfold execCommand at hx
          split at hx
          · cases hx; exact Or.inl (respond_running _ _)
          · split at hx
            · split at hx
              · cases hx
              · cases hx; exact Or.inl (respond_running _ _)
              · cases hx; exact Or.inl (respond_running _ _)
              · cases hx; exact hact
            · split at hx
              · cases hx; exact hact
              · cases hx; exact Or.inl (respond_running _ _)
      · split at hr
        · cases hr; exact running_act (register s.q r.id) r.id r.act
        · cases hr; exact fin _
  · cases hr; exact fin _

/-- The fate of an id over one step. -/
theorem respond_keeps {q : Queue I V} (h : QInv q) (id : I) (r : Reply V) (x : I)
    (hx : x ∈ q.pending) : x ∈ (respond q id r).pending ∨ x ∈ (respond q id r).sent.map Prod.fst := by
  by_cases e : x = id
  · exact Or.inr ((respond_sent_mem _ _ _).mpr (Or.inr ⟨e, e ▸ hx⟩))
  · exact Or.inl ((respond_pending h _ _ _).mpr ⟨hx, e⟩)

theorem inv_step (t : Table) {s s' : Lsp I V H} {used : List I} (h : Inv s used) {e : Event I V H}
    (hd : ∀ r, e = .request r → r.id ∉ used) (hs : step t s e = some s') :
    Inv s' (requestIds [e] ++ used) := by
  cases e with
  | request r =>
    have hfresh := hd r rfl
    have mono : Inv s (requestIds [.request (H := H) r] ++ used) :=
      ⟨h.qinv, fun i hi => List.mem_append_right _ (h.sentUsed i hi),
        fun i hi => List.mem_append_right _ (h.pendUsed i hi), h.pendRunning,
        fun i hi => List.mem_append_right _ (h.runUsed i hi), h.ndRun⟩
    simp only [step] at hs
    split at hs
    · cases hs; exact mono
    · have hns : r.id ∉ s.q.sent.map Prod.fst := fun hm => hfresh (h.sentUsed _ hm)
      have sv := served_request t h.qinv hns hs
      have rr := running_request t hs
      refine ⟨sv.inv, ?_, ?_, ?_, ?_, ?_⟩
      · intro i hi
        rcases sv.sentMem i hi with h' | h'
        · exact mono.sentUsed i h'
        · simp [requestIds, h']
      · intro i hi
        by_cases e : i = r.id
        · simp [requestIds, e]
        · exact mono.pendUsed i ((sv.pend i e).mp hi)
      · intro i hi
        by_cases e : i = r.id
        · subst e
          rcases sv.outcome with h' | h'
          · exact absurd h' (sv.inv.disj _ hi)
          · exact h'.2.2
        · exact (sv.run i e).mpr (h.pendRunning i ((sv.pend i e).mp hi))
      · intro i hi
        rcases rr with rr | rr <;> rw [rr] at hi
        · exact mono.runUsed i hi
        · rcases List.mem_cons.mp hi with rfl | hi
          · simp [requestIds]
          · exact mono.runUsed i hi
      · rcases rr with rr | rr <;> rw [rr]
        · exact h.ndRun
        · exact List.nodup_cons.mpr ⟨fun hm => hfresh (h.runUsed _ hm), h.ndRun⟩
  | notification m =>
    simp only [step] at hs
    cases hs
    split
    · exact h
    · exact ⟨h.qinv, h.sentUsed, h.pendUsed, h.pendRunning, h.runUsed, h.ndRun⟩
  | response id =>
    simp only [step] at hs
    cases hs
    split
    · exact h
    · have e := onResponse_q s id
      refine ⟨?_, ?_, ?_, ?_, ?_, ?_⟩ <;> simp only [answered, e, requestIds, List.nil_append]
      · exact h.qinv
      · exact h.sentUsed
      · exact h.pendUsed
      · exact h.pendRunning
      · exact h.runUsed
      · exact h.ndRun
  | complete id r =>
    simp only [step] at hs
    cases hs
    unfold complete
    split
    · rename_i hr
      have hq : QInv { s.q with running := s.q.running.erase id } :=
        ⟨h.qinv.ndPending, h.qinv.ndSent, h.qinv.disj⟩
      refine ⟨respond_inv hq _ _, ?_, ?_, ?_, ?_, ?_⟩
      · intro i hi
        rcases (respond_sent_mem _ _ _).mp hi with h' | h'
        · exact h.sentUsed i h'
        · exact h.pendUsed i (h'.1 ▸ h'.2)
      · intro i hi; exact h.pendUsed i ((respond_pending hq _ _ _).mp hi).1
      · intro i hi
        have := (respond_pending hq _ _ _).mp hi
        rw [respond_running]
        exact (List.Nodup.mem_erase_iff h.ndRun).mpr ⟨this.2, h.pendRunning i this.1⟩
      · intro i hi
        rw [respond_running] at hi
        exact h.runUsed i (List.mem_of_mem_erase hi)
      · rw [respond_running]; exact h.ndRun.erase _
    · exact h
  | cancel id =>
    simp only [step] at hs
    cases hs
    unfold cancel
    refine ⟨respond_inv h.qinv _ _, ?_, ?_, ?_, ?_, ?_⟩
    · intro i hi
      rcases (respond_sent_mem _ _ _).mp hi with h' | h'
      · exact h.sentUsed i h'
      · exact h.pendUsed i (h'.1 ▸ h'.2)
    · intro i hi; exact h.pendUsed i ((respond_pending h.qinv _ _ _).mp hi).1
    · intro i hi
      rw [respond_running]; exact h.pendRunning i ((respond_pending h.qinv _ _ _).mp hi).1
    · rw [respond_running]; exact h.runUsed
    · rw [respond_running]; exact h.ndRun
  | send hnd =>
    simp only [step] at hs
    cases hs
    exact ⟨h.qinv, h.sentUsed, h.pendUsed, h.pendRunning, h.runUsed, h.ndRun⟩

theorem requestIds_append (a b : List (Event I V H)) :
    requestIds (a ++ b) = requestIds a ++ requestIds b := by
  induction a with
  | nil => rfl
  | cons e es ih => cases e <;> simp [requestIds, ih]

theorem run_append (t : Table) (s : Lsp I V H) (a b : List (Event I V H)) :
    run t s (a ++ b) = (run t s a).bind fun s => run t s b := by
  induction a generalizing s with
  | nil => rfl
  | cons e es ih =>
    simp only [List.cons_append, run]
    cases step t s e with
    | none => rfl
    | some s' => exact ih s'

theorem inv_run (t : Table) {es : List (Event I V H)} {s s' : Lsp I V H} {used : List I}
    (h : Inv s used) (hd : (requestIds es).Nodup) (hu : ∀ id ∈ requestIds es, id ∉ used)
    (hr : run t s es = some s') : ∃ used', Inv s' used' ∧ ∀ id, id ∈ used' ↔ id ∈ used ∨ id ∈ requestIds es := by
  induction es generalizing s used with
  | nil => cases hr; exact ⟨used, h, by simp [requestIds]⟩
  | cons e es ih =>
    simp only [run] at hr
    cases hst : step t s e with
    | none => rw [hst] at hr; cases hr
    | some s1 =>
      rw [hst] at hr
      have happ : requestIds (e :: es) = requestIds [e] ++ requestIds es := requestIds_append [e] es
      rw [happ] at hd hu
      have hnd := List.nodup_append.mp hd
      have h1 : Inv s1 (requestIds [e] ++ used) := by
        refine inv_step t h ?_ hst
        intro r he
        subst he
        exact hu r.id (by simp [requestIds])
      obtain ⟨u, hu1, hu2⟩ := ih (used := requestIds [e] ++ used) h1 hnd.2.1 (by
        intro id hid hmem
        rcases List.mem_append.mp hmem with h' | h'
        · exact hnd.2.2 id h' id hid rfl
        · exact hu id (List.mem_append_right _ hid) h') hr
      refine ⟨u, hu1, ?_⟩
      intro id
      rw [hu2, happ]
      simp only [List.mem_append]
      grind

theorem inv_init : Inv (Lsp.init : Lsp I V H) [] := by
  constructor <;> simp [Lsp.init, Queue.init, answered]
  exact ⟨by simp, by simp, by simp⟩

/-- Answers are never retracted. -/
theorem sent_prefix_step (t : Table) {s s' : Lsp I V H} {used : List I} (h : Inv s used)
    {e : Event I V H} (hd : ∀ r, e = .request r → r.id ∉ used) (hs : step t s e = some s') :
    ∃ l, s'.q.sent = s.q.sent ++ l := by
  have nil : ∃ l, s.q.sent = s.q.sent ++ l := ⟨[], by simp⟩
  cases e with
  | request r =>
    simp only [step] at hs
    split at hs
    · cases hs; exact nil
    · exact (served_request t h.qinv (fun hm => hd r rfl (h.sentUsed _ hm)) hs).pre
  | notification m => simp only [step] at hs; cases hs; split <;> exact nil
  | response id =>
    simp only [step] at hs; cases hs; split
    · exact nil
    · rw [onResponse_q]; exact nil
  | complete id r =>
    simp only [step] at hs; cases hs; unfold complete; split
    · exact respond_sent_prefix _ _ _
    · exact nil
  | cancel id => simp only [step] at hs; cases hs; exact respond_sent_prefix _ _ _
  | send hnd => simp only [step] at hs; cases hs; exact nil

theorem sent_prefix_run (t : Table) {es : List (Event I V H)} {s s' : Lsp I V H} {used : List I}
    (h : Inv s used) (hd : (requestIds es).Nodup) (hu : ∀ id ∈ requestIds es, id ∉ used)
    (hr : run t s es = some s') : ∃ l, s'.q.sent = s.q.sent ++ l := by
  induction es generalizing s used with
  | nil => cases hr; exact ⟨[], by simp⟩
  | cons e es ih =>
    simp only [run] at hr
    cases hst : step t s e with
    | none => rw [hst] at hr; cases hr
    | some s1 =>
      rw [hst] at hr
      have happ : requestIds (e :: es) = requestIds [e] ++ requestIds es := requestIds_append [e] es
      rw [happ] at hd hu
      have hnd := List.nodup_append.mp hd
      have hfr : ∀ r, e = .request r → r.id ∉ used := by
        intro r he; subst he; exact hu r.id (by simp [requestIds])
      have h1 := inv_step t h hfr hst
      obtain ⟨l1, e1⟩ := sent_prefix_step t h hfr hst
      obtain ⟨l2, e2⟩ := ih h1 hnd.2.1 (by
        intro id hid hmem
        rcases List.mem_append.mp hmem with h' | h'
        · exact hnd.2.2 id h' id hid rfl
        · exact hu id (List.mem_append_right _ hid) h') hr
      exact ⟨l1 ++ l2, by rw [e2, e1, List.append_assoc]⟩

/-- A pending id stays pending until it is answered. -/
theorem pending_step (t : Table) {s s' : Lsp I V H} {used : List I} (h : Inv s used)
    {e : Event I V H} (hd : ∀ r, e = .request r → r.id ∉ used) (hs : step t s e = some s') {id : I}
    (hp : id ∈ s.q.pending) : id ∈ s'.q.pending ∨ id ∈ answered s' := by
  cases e with
  | request r =>
    simp only [step] at hs
    split at hs
    · cases hs; exact Or.inl hp
    · have sv := served_request t h.qinv (fun hm => hd r rfl (h.sentUsed _ hm)) hs
      have : id ≠ r.id := fun e => hd r rfl (e ▸ h.pendUsed _ hp)
      exact Or.inl ((sv.pend id this).mpr hp)
  | notification m => simp only [step] at hs; cases hs; split <;> exact Or.inl hp
  | response i =>
    simp only [step] at hs; cases hs; split
    · exact Or.inl hp
    · rw [onResponse_q]; exact Or.inl hp
  | complete i r =>
    simp only [step] at hs; cases hs; simp only [answered, complete]; split
    · exact respond_keeps (q := { s.q with running := s.q.running.erase i })
        ⟨h.qinv.ndPending, h.qinv.ndSent, h.qinv.disj⟩ _ _ _ hp
    · exact Or.inl hp
  | cancel i => simp only [step] at hs; cases hs; exact respond_keeps h.qinv _ _ _ hp
  | send hnd => simp only [step] at hs; cases hs; exact Or.inl hp

theorem settled_run (t : Table) {es : List (Event I V H)} {s s' : Lsp I V H} {used : List I}
    (h : Inv s used) (hd : (requestIds es).Nodup) (hu : ∀ id ∈ requestIds es, id ∉ used)
    (hr : run t s es = some s') {id : I} (hp : id ∈ s.q.pending ∨ id ∈ answered s)
    (hev : id ∈ answered s ∨ (∃ r, Event.complete id r ∈ es) ∨ Event.cancel id ∈ es) :
    id ∈ answered s' := by
  induction es generalizing s used with
  | nil =>
    cases hr
    rcases hev with h | h | h
    · exact h
    · simp at h
    · simp at h
  | cons e es ih =>
    simp only [run] at hr
    cases hst : step t s e with
    | none => rw [hst] at hr; cases hr
    | some s1 =>
      rw [hst] at hr
      have happ : requestIds (e :: es) = requestIds [e] ++ requestIds es := requestIds_append [e] es
      rw [happ] at hd hu
      have hnd := List.nodup_append.mp hd
      have hfr : ∀ r, e = .request r → r.id ∉ used := by
        intro r he; subst he; exact hu r.id (by simp [requestIds])
      have h1 := inv_step t h hfr hst
      obtain ⟨l1, e1⟩ := sent_prefix_step t h hfr hst
      have keepA : id ∈ answered s → id ∈ answered s1 := by
        intro ha
        simp only [answered, e1, List.map_append, List.mem_append]
        exact Or.inl ha
      have hp1 : id ∈ s1.q.pending ∨ id ∈ answered s1 := by
        rcases hp with hp | hp
        · exact pending_step t h hfr hst hp
        · exact Or.inr (keepA hp)
      have hu1 : ∀ i ∈ requestIds es, i ∉ requestIds [e] ++ used := by
        intro i hid hmem
        rcases List.mem_append.mp hmem with h' | h'
        · exact hnd.2.2 i h' i hid rfl
        · exact hu i (List.mem_append_right _ hid) h'
      refine ih h1 hnd.2.1 hu1 hr hp1 ?_
      rcases hev with hev | ⟨r, hev⟩ | hev
      · exact Or.inl (keepA hev)
      · rcases List.mem_cons.mp hev with he | he
        · left
          rcases hp with hp | hp
          · subst he
            simp only [step] at hst
            cases hst
            simp only [answered, complete, if_pos (h.pendRunning id hp)]
            exact (respond_sent_mem _ _ _).mpr (Or.inr ⟨rfl, hp⟩)
          · exact keepA hp
        · exact Or.inr (Or.inl ⟨r, he⟩)
      · rcases List.mem_cons.mp hev with he | he
        · left
          rcases hp with hp | hp
          · subst he
            simp only [step] at hst
            cases hst
            exact (respond_sent_mem _ _ _).mpr (Or.inr ⟨rfl, hp⟩)
          · exact keepA hp
        · exact Or.inr (Or.inr he)

theorem onRequest_exited (t : Table) {s s' : Lsp I V H} {r : Request I V}
    (hr : onRequest t s r = some s') : s'.exited = s.exited := by
  unfold onRequest at hr
  simp only [] at hr
  repeat' split at hr
  all_goals first
    | (cases hr; rfl)
    | (cases hx : execCommand t (register s.q r.id) r with
        | none => rw [hx] at hr; cases hr
        | some p => rw [hx] at hr; cases hr; rfl)

theorem not_exited (t : Table) {es : List (Event I V H)} {s s' : Lsp I V H} (hs : s.exited = false)
    (hne : NoExit es) (hr : run t s es = some s') : s'.exited = false := by
  induction es generalizing s with
  | nil => cases hr; exact hs
  | cons e es ih =>
    simp only [run] at hr
    cases hst : step t s e with
    | none => rw [hst] at hr; cases hr
    | some s1 =>
      rw [hst] at hr
      refine ih ?_ (fun hm => hne (List.mem_cons_of_mem _ hm)) hr
      cases e with
      | request r =>
        simp only [step, hs] at hst
        rw [onRequest_exited t hst, hs]
      | notification m =>
        simp only [step, hs] at hst
        cases hst
        simp only [onNotification]
        have : m ≠ "exit" := fun e => hne (by simp [e])
        simp [this]
      | response id =>
        simp only [step, hs] at hst
        cases hst
        unfold onResponse
        simp only [Bool.false_eq_true, if_false]
        split
        · split <;> exact hs
        · exact hs
      | complete id r => simp only [step] at hst; cases hst; exact hs
      | cancel id => simp only [step] at hst; cases hst; exact hs
      | send hnd => simp only [step] at hst; cases hst; exact hs

end Tinymist.Server
