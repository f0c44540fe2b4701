import Verif.Lemmas.ServerPhase
/-!
# C15, C16, C18, C48: answering requests, the session protocol, outgoing requests
-/
namespace Tinymist.Server
variable {I V H : Type} [DecidableEq I]

/-- **C15** (safety). Whatever the client sends, whatever handlers do, and however their completions,
failures and cancellations interleave: if the client never reuses an id, each id is answered at most
once, and only ids the client used are answered. -/
theorem answered_at_most_once (t : Table) (es : List (Event I V H)) (s : Lsp I V H)
    (hd : (requestIds es).Nodup) (hr : run t Lsp.init es = some s) :
    (answered s).Nodup ∧ ∀ id ∈ answered s, id ∈ requestIds es := by
  obtain ⟨u, hi, hu⟩ := inv_run t inv_init hd (by simp) hr
  refine ⟨hi.qinv.ndSent, fun id hid => ?_⟩
  rcases (hu id).mp (hi.sentUsed id hid) with h | h
  · cases h
  · exact h

/-- **C15** (liveness). A request read by the server is answered as soon as its handler has produced a
result: immediately unless it deferred the work, else when the deferred work completes or the request
is cancelled, no matter what happens in between. -/
theorem answered_once_settled (t : Table) (pre post : List (Event I V H)) (r : Request I V)
    (s : Lsp I V H) (hd : (requestIds (pre ++ .request r :: post)).Nodup) (hne : NoExit pre)
    (hr : run t Lsp.init (pre ++ .request r :: post) = some s)
    (hset : ¬ Deferred r ∨ (∃ v, Event.complete r.id v ∈ post) ∨ Event.cancel r.id ∈ post) :
    (answered s).count r.id = 1 := by
  have hmem : r.id ∈ answered s := by
    rw [run_append] at hr
    rw [requestIds_append] at hd
    have hnd := List.nodup_append.mp hd
    cases hrun : run t Lsp.init pre with
    | none => rw [hrun] at hr; cases hr
    | some s1 =>
      rw [hrun] at hr
      simp only [Option.bind_some, run] at hr
      obtain ⟨u, hi, hu⟩ := inv_run t inv_init hnd.1 (by simp) hrun
      have hex := not_exited t (s := Lsp.init) rfl hne hrun
      have hfresh : r.id ∉ u := by
        intro hm
        rcases (hu _).mp hm with h | h
        · cases h
        · exact hnd.2.2 _ h r.id (by simp [requestIds]) rfl
      have hnp : (r.id :: requestIds post).Nodup := hnd.2.1
      cases hst : step t s1 (.request r) with
      | none => rw [hst] at hr; cases hr
      | some s2 =>
        rw [hst] at hr
        have hi2 := inv_step t hi (by intro r' e; cases e; exact hfresh) hst
        have hon : onRequest t s1 r = some s2 := by simpa [step, hex] using hst
        have sv := served_request t hi.qinv (fun hm => hfresh (hi.sentUsed _ hm)) hon
        refine settled_run t hi2 (List.nodup_cons.mp hnp).2 ?_ hr ?_ ?_
        · intro i hi' hm
          rcases List.mem_append.mp hm with h | h
          · simp only [requestIds, List.mem_singleton] at h
            subst h
            exact (List.nodup_cons.mp hnp).1 hi'
          · rcases (hu _).mp h with h | h
            · cases h
            · exact hnd.2.2 _ h i (by simp [requestIds, hi']) rfl
        · rcases sv.outcome with h | h
          · exact Or.inr h
          · exact Or.inl h.2.1
        · rcases sv.outcome with h | h
          · exact Or.inl h
          · rcases hset with h' | h'
            · exact absurd h.1 h'
            · exact Or.inr h'
  have hnd := (answered_at_most_once t _ s hd hr).1
  exact Util.count_eq_one hnd hmem

/-- **C15** (content). While a request is unanswered, the next completion or cancellation of it is what
the client is told; once answered, nothing more is sent for it. -/
theorem answer_is_first_outcome (t : Table) (es : List (Event I V H)) (s : Lsp I V H)
    (hd : (requestIds es).Nodup) (hr : run t Lsp.init es = some s) (id : I)
    (hreq : id ∈ requestIds es) (hne : NoExit es) (v : Reply V) :
    (id ∉ answered s →
      (∃ s', step t s (.complete id v) = some s' ∧ s'.q.sent = s.q.sent ++ [(id, v)]) ∧
      ∃ s', step t s (.cancel id) = some s' ∧ s'.q.sent = s.q.sent ++ [(id, .err .requestCanceled)]) ∧
    (id ∈ answered s →
      (∃ s', step t s (.complete id v) = some s' ∧ s'.q.sent = s.q.sent) ∧
      ∃ s', step t s (.cancel id) = some s' ∧ s'.q.sent = s.q.sent) := by
  obtain ⟨u, hi, hu⟩ := inv_run t inv_init hd (by simp) hr
  have key : id ∉ answered s → id ∈ s.q.pending := by
    intro hna
    -- a request that was read is pending or answered
    clear hi hu
    induction es using Util.reverseInd generalizing s with
    | nil => cases hreq
    | append_singleton es e ih =>
      rw [run_snoc] at hr
      have hd0 := hd
      rw [requestIds_append] at hd
      have hnd := List.nodup_append.mp hd
      have hne1 : NoExit es := fun h => hne (List.mem_append_left _ h)
      cases hrun : run t Lsp.init es with
      | none => rw [hrun] at hr; cases hr
      | some s1 =>
        rw [hrun] at hr
        have hst : step t s1 e = some s := hr
        obtain ⟨u1, hi1, hu1⟩ := inv_run t inv_init hnd.1 (by simp) hrun
        have hfr : ∀ r, e = .request r → r.id ∉ u1 := by
          intro r he hm
          subst he
          rcases (hu1 _).mp hm with h | h
          · cases h
          · exact hnd.2.2 _ h r.id (by simp [requestIds]) rfl
        rw [requestIds_append] at hreq
        rcases List.mem_append.mp hreq with h | h
        · have hna1 : id ∉ answered s1 := by
            obtain ⟨l, el⟩ := sent_prefix_step t hi1 hfr hst
            intro hm
            apply hna
            simp only [answered, el, List.map_append]
            exact List.mem_append_left _ hm
          have hp := ih s1 hnd.1 hrun h hne1 hna1
          rcases pending_step t hi1 hfr hst hp with h | h
          · exact h
          · exact absurd h hna
        · cases e with
          | request r =>
            simp only [requestIds, List.mem_singleton] at h
            subst h
            have hex := not_exited t (s := Lsp.init) rfl hne1 hrun
            have hon : onRequest t s1 r = some s := by simpa [step, hex] using hst
            have sv := served_request t hi1.qinv (fun hm => hfr r rfl (hi1.sentUsed _ hm)) hon
            rcases sv.outcome with h | h
            · exact absurd h hna
            · exact h.2.1
          | _ => cases h
  constructor
  · intro hna
    have hp := key hna
    refine ⟨⟨_, rfl, ?_⟩, ⟨_, rfl, respond_sent_of_pending hp _⟩⟩
    simp only [complete, if_pos (hi.pendRunning id hp)]
    exact respond_sent_of_pending (q := { s.q with running := s.q.running.erase id }) hp v
  · intro ha
    have hp : id ∉ s.q.pending := fun h => hi.qinv.disj _ h ha
    refine ⟨⟨_, rfl, ?_⟩, ⟨_, rfl, ?_⟩⟩
    · show (complete s.q id v).sent = s.q.sent
      unfold complete
      split
      · rw [respond_noop_after (q := { s.q with running := s.q.running.erase id }) hp]
      · rfl
    · show (cancel s.q id).sent = s.q.sent
      unfold cancel
      rw [respond_noop_after hp]

/-- **C51**, refuted: a request can bring the server down.  `tinymist.getResources` without arguments
panics in an initialised session, and the request is never answered. -/
theorem getResources_without_args_panics :
    ∃ (t : Table) (pre : List (Event Nat Nat Nat)) (s : Lsp Nat Nat Nat) (r : Request Nat Nat),
      run t Lsp.init pre = some s ∧ r.method = "workspace/executeCommand" ∧
      step t s (.request r) = none := by
  refine ⟨⟨fun _ => true, fun _ => true, fun _ => true⟩,
    [.request ⟨0, "initialize", true, "", .known, .sched (.done .null)⟩, .notification "initialized"], _,
    ⟨1, "workspace/executeCommand", true, "tinymist.getResources", .missing, .okNone⟩, rfl, rfl, rfl⟩

/-- **C51**, the part that holds: that is the only request on which the driver itself panics. -/
theorem only_getResources_panics_partial (t : Table) (s : Lsp I V H) (r : Request I V)
    (h : step t s (.request r) = none) :
    r.method = "workspace/executeCommand" ∧ r.command = "tinymist.getResources" ∧ r.res = .missing := by
  simp only [step] at h
  split at h
  · cases h
  · unfold onRequest at h
    simp only [] at h
    split at h
    · repeat' split at h
      all_goals cases h
    · cases h
    · split at h
      · cases h
      · split at h
        · rename_i hm
          have hx : execCommand t (register s.q r.id) r = none := by
            cases hx : execCommand t (register s.q r.id) r with
            | none => rfl
            | some p => rw [hx] at h; cases h
          unfold execCommand at hx
          split at hx
          · cases hx
          · split at hx
            · rename_i hc
              split at hx
              · rename_i hres; exact ⟨hm, hc, hres⟩
              all_goals cases hx
            · split at hx <;> cases hx
        · split at h <;> cases h
    · cases h

/-- **C16** (before). Until the client has sent `initialize` and then `initialized`, every request
except the first well-formed `initialize` is refused with `ServerNotInitialized`, without any other
effect; a malformed first `initialize` is refused with `InvalidRequest`. -/
theorem refused_before_initialized (t : Table) (ht : t.requests "shutdown" = true)
    (es : List (Event I V H)) (s : Lsp I V H) (r : Request I V) (hne : NoExit es)
    (hd : (requestIds (es ++ [.request r])).Nodup) (hr : run t Lsp.init es = some s)
    (hno : ¬ Opened es) :
    (r.method ≠ "initialize" ∨ Started es → Refused t s r .serverNotInitialized) ∧
    (r.method = "initialize" → r.paramsOk = false → ¬ Started es → Refused t s r .invalidRequest) := by
  rw [requestIds_append] at hd
  have hnd := List.nodup_append.mp hd
  obtain ⟨u, hi, hu⟩ := inv_run t inv_init hnd.1 (by simp) hr
  have hnp : r.id ∉ s.q.pending := by
    intro hm
    rcases (hu _).mp (hi.pendUsed _ hm) with h | h
    · cases h
    · exact hnd.2.2 _ h r.id (by simp [requestIds]) rfl
  have hex := not_exited t (s := Lsp.init) rfl hne hr
  have ph := phaseOf t ht es hne hr
  have h1 := ph.started
  have h2 := ph.opened
  unfold Refused
  simp only [step, hex, Bool.false_eq_true, if_false, onRequest, refuse_eq hnp]
  cases hp : s.phase with
  | uninitialized =>
    rw [hp] at h1 h2
    have hns : ¬ Started es := fun h => (h1.mp h) rfl
    constructor
    · rintro (h | h)
      · simp [h, hp]
      · exact absurd h hns
    · intro hm hpo _
      simp [hm, hpo, hp]
  | initializing =>
    rw [hp] at h1 h2
    have hs : Started es := h1.mpr (by simp)
    refine ⟨fun _ => by simp [hp], fun _ _ h => absurd hs h⟩
  | ready => rw [hp] at h2; exact absurd (h2.mpr (Or.inl rfl)) hno
  | shuttingDown => rw [hp] at h2; exact absurd (h2.mpr (Or.inr rfl)) hno

/-- **C16** (after). A second `initialize` in an open session is refused with `InvalidRequest`; after
`shutdown` every request is. -/
theorem refused_after_shutdown (t : Table) (ht : t.requests "shutdown" = true)
    (es : List (Event I V H)) (s : Lsp I V H) (r : Request I V) (hne : NoExit es)
    (hd : (requestIds (es ++ [.request r])).Nodup) (hr : run t Lsp.init es = some s)
    (h : (Opened es ∧ r.method = "initialize") ∨ ShutDown es) :
    Refused t s r .invalidRequest := by
  rw [requestIds_append] at hd
  have hnd := List.nodup_append.mp hd
  obtain ⟨u, hi, hu⟩ := inv_run t inv_init hnd.1 (by simp) hr
  have hnp : r.id ∉ s.q.pending := by
    intro hm
    rcases (hu _).mp (hi.pendUsed _ hm) with h | h
    · cases h
    · exact hnd.2.2 _ h r.id (by simp [requestIds]) rfl
  have hex := not_exited t (s := Lsp.init) rfl hne hr
  have ph := phaseOf t ht es hne hr
  have h2 := ph.opened
  have h3 := ph.shut
  unfold Refused
  simp only [step, hex, Bool.false_eq_true, if_false, onRequest, refuse_eq hnp]
  cases hp : s.phase with
  | uninitialized => rw [hp] at h2 h3; simp at h2 h3; grind
  | initializing => rw [hp] at h2 h3; simp at h2 h3; grind
  | ready =>
    rw [hp] at h3
    rcases h with h | h
    · simp [h.2, hp]
    · simp at h3; exact absurd h h3
  | shuttingDown => simp [hp]

/-- **C16** (while open). Between `initialized` and `shutdown`, a request whose method is registered is
handed to its handler: the reply is the handler's, and work is started iff the handler deferred it. -/
theorem served_while_open (t : Table) (ht : t.requests "shutdown" = true)
    (es : List (Event I V H)) (s : Lsp I V H) (r : Request I V) (hne : NoExit es)
    (hd : (requestIds (es ++ [.request r])).Nodup) (hr : run t Lsp.init es = some s)
    (ho : Opened es) (hns : ¬ ShutDown es) (hm : t.requests r.method = true)
    (hm1 : r.method ≠ "initialize") (hm2 : r.method ≠ "workspace/executeCommand") :
    ∃ s', step t s (.request r) = some s' ∧
      (∀ v, r.act = .sched (.done v) → s'.q.sent = s.q.sent ++ [(r.id, v)] ∧ s'.q.running = s.q.running) ∧
      (r.act = .sched .future → s'.q.sent = s.q.sent ∧ s'.q.running = r.id :: s.q.running) ∧
      (∀ e, r.act = .sched (.reject e) → s'.q.sent = s.q.sent ++ [(r.id, .err e)]) ∧
      (r.act = .okNone → s'.q.sent = s.q.sent ++ [(r.id, .null)]) ∧
      (r.act = .badParams → s'.q.sent = s.q.sent ++ [(r.id, .err .invalidRequest)]) := by
  have hex := not_exited t (s := Lsp.init) rfl hne hr
  have ph := phaseOf t ht es hne hr
  have hp : s.phase = .ready := by
    rcases ph.opened.mp ho with h | h
    · exact h
    · exact absurd (ph.shut.mpr h) hns
  have hpend : r.id ∈ (register s.q r.id).pending := (register_pending _ _ _).mpr (Or.inl rfl)
  simp only [step, hex, Bool.false_eq_true, if_false, onRequest, hp, hm1, hm2, hm, if_true]
  refine ⟨_, rfl, ?_, ?_, ?_, ?_, ?_⟩
  · intro v hv
    simp only [hv, runAct, schedule, scheduleTail]
    exact ⟨respond_sent_of_pending hpend _, respond_running _ _⟩
  · intro hv; simp only [hv, runAct, schedule, scheduleTail]; exact ⟨rfl, rfl⟩
  · intro e hv; simp only [hv, runAct, schedule, scheduleTail]; exact respond_sent_of_pending hpend _
  · intro hv; simp only [hv, runAct, scheduleTail]; exact respond_sent_of_pending hpend _
  · intro hv; simp only [hv, runAct, scheduleTail]; exact respond_sent_of_pending hpend _

/-- **C16** (unknown requests). In an open session a request no handler is registered for is refused
with `MethodNotFound`, and so is a command no handler is registered for; a command request whose
parameters are not those of a command is refused with `InvalidParams`. -/
theorem unknown_refused (t : Table) (ht : t.requests "shutdown" = true)
    (es : List (Event I V H)) (s : Lsp I V H) (r : Request I V) (hne : NoExit es)
    (hd : (requestIds (es ++ [.request r])).Nodup) (hr : run t Lsp.init es = some s)
    (ho : Opened es) (hns : ¬ ShutDown es) (hm1 : r.method ≠ "initialize") :
    (t.requests r.method = false → r.method ≠ "workspace/executeCommand" →
      Refused t s r .methodNotFound) ∧
    (r.method = "workspace/executeCommand" → r.paramsOk = false → Refused t s r .invalidParams) ∧
    (r.method = "workspace/executeCommand" → r.paramsOk = true →
      r.command ≠ "tinymist.getResources" → t.commands r.command = false →
      Refused t s r .methodNotFound) ∧
    (r.method = "workspace/executeCommand" → r.paramsOk = true →
      r.command = "tinymist.getResources" → r.res = .notAPath → Refused t s r .invalidParams) ∧
    (r.method = "workspace/executeCommand" → r.paramsOk = true →
      r.command = "tinymist.getResources" → r.res = .unknownPath →
      Refused t s r .methodNotFound) := by
  rw [requestIds_append] at hd
  have hnd := List.nodup_append.mp hd
  obtain ⟨u, hi, hu⟩ := inv_run t inv_init hnd.1 (by simp) hr
  have hnp : r.id ∉ s.q.pending := by
    intro hm
    rcases (hu _).mp (hi.pendUsed _ hm) with h | h
    · cases h
    · exact hnd.2.2 _ h r.id (by simp [requestIds]) rfl
  have hex := not_exited t (s := Lsp.init) rfl hne hr
  have ph := phaseOf t ht es hne hr
  have hp : s.phase = .ready := by
    rcases ph.opened.mp ho with h | h
    · exact h
    · exact absurd (ph.shut.mpr h) hns
  have hfin : ∀ e, finish (register s.q r.id) r.id (.reject e) =
      { s.q with sent := s.q.sent ++ [(r.id, .err e)] } := by
    intro e
    simp only [finish, schedule, scheduleTail]
    exact refuse_eq hnp e
  unfold Refused
  simp only [step, hex, Bool.false_eq_true, if_false, onRequest, hp, hm1, refuse_eq hnp]
  refine ⟨fun h1 h2 => by simp [h1, h2], fun h1 h2 => by simp [h1, h2, execCommand, reschedule, hfin],
    fun h1 h2 h3 h4 => ?_, fun h1 h2 h3 h4 => ?_, fun h1 h2 h3 h4 => ?_⟩ <;>
  · simp only [h1, if_true, execCommand, h2, h3, h4, not_true_eq_false, if_false,
      Bool.false_eq_true, not_false_eq_true, Option.map_some, reschedule, hfin]

/-- **C16** (commands). In an open session a registered command, and `tinymist.getResources` for a
known resource, is handed to its handler: the reply is the handler's, and work is started iff the
handler deferred it. -/
theorem commands_served (t : Table) (ht : t.requests "shutdown" = true)
    (es : List (Event I V H)) (s : Lsp I V H) (r : Request I V) (hne : NoExit es)
    (hr : run t Lsp.init es = some s)
    (ho : Opened es) (hns : ¬ ShutDown es) (hm : r.method = "workspace/executeCommand")
    (hpar : r.paramsOk = true)
    (hc : (r.command ≠ "tinymist.getResources" ∧ t.commands r.command = true) ∨
      (r.command = "tinymist.getResources" ∧ r.res = .known)) :
    ∃ s', step t s (.request r) = some s' ∧
      (∀ v, r.act = .sched (.done v) → s'.q.sent = s.q.sent ++ [(r.id, v)] ∧ s'.q.running = s.q.running) ∧
      (r.act = .sched .future → s'.q.sent = s.q.sent ∧ s'.q.running = r.id :: s.q.running) ∧
      (∀ e, r.act = .sched (.reject e) → s'.q.sent = s.q.sent ++ [(r.id, .err e)]) ∧
      (r.act = .okNone → s'.q.sent = s.q.sent ++ [(r.id, .null)]) ∧
      (r.act = .badParams → s'.q.sent = s.q.sent ++ [(r.id, .err .invalidRequest)]) := by
  have hex := not_exited t (s := Lsp.init) rfl hne hr
  have ph := phaseOf t ht es hne hr
  have hp : s.phase = .ready := by
    rcases ph.opened.mp ho with h | h
    · exact h
    · exact absurd (ph.shut.mpr h) hns
  have hpend : r.id ∈ (register s.q r.id).pending := (register_pending _ _ _).mpr (Or.inl rfl)
  have hx : execCommand t (register s.q r.id) r = some (runAct (register s.q r.id) r.id r.act) := by
    unfold execCommand
    rcases hc with ⟨h1, h2⟩ | ⟨h1, h2⟩
    · simp [hpar, h1, h2]
    · simp [hpar, h1, h2]
  have hmi : ¬ r.method = "initialize" := by rw [hm]; decide
  simp only [step, hex, Bool.false_eq_true, if_false, onRequest, hp, hmi, hm, if_true, hx,
    Option.map_some]
  refine ⟨_, rfl, ?_, ?_, ?_, ?_, ?_⟩
  · intro v hv
    simp only [hv, runAct, schedule, reschedule]
    exact ⟨respond_sent_of_pending hpend _, respond_running _ _⟩
  · intro hv; simp only [hv, runAct, schedule, reschedule]; exact ⟨rfl, rfl⟩
  · intro e hv
    simp only [hv, runAct, schedule, reschedule, finish, scheduleTail]
    exact respond_sent_of_pending hpend _
  · intro hv
    simp only [hv, runAct, schedule, reschedule, finish, scheduleTail]
    exact respond_sent_of_pending hpend _
  · intro hv
    simp only [hv, runAct, schedule, reschedule, finish, scheduleTail]
    exact respond_sent_of_pending hpend _

/-- **C16** (notifications). Outside an open session notifications run no handler; inside one they run
exactly the registered handler.  (`initialized` itself opens the session.) -/
theorem notifications_only_while_open (t : Table) (ht : t.requests "shutdown" = true)
    (es : List (Event I V H)) (s : Lsp I V H) (m : String) (hne : NoExit es)
    (hr : run t Lsp.init es = some s) :
    ∃ s', step t s (.notification m) = some s' ∧ s'.q = s.q ∧
      (Opened (es ++ [.notification m]) ∧ ¬ ShutDown es ∧ t.notifications m = true →
        s'.handled = s.handled ++ [m]) ∧
      (¬ (Opened (es ++ [.notification m]) ∧ ¬ ShutDown es ∧ t.notifications m = true) →
        s'.handled = s.handled) := by
  have hex := not_exited t (s := Lsp.init) rfl hne hr
  have ph := phaseOf t ht es hne hr
  have h1 := ph.started
  have h2 := ph.opened
  have h3 := ph.shut
  refine ⟨_, rfl, ?_, ?_⟩
  · simp only [hex]; rfl
  · rw [opened_snoc, h1, h2, h3]
    simp only [hex, Bool.false_eq_true, if_false, onNotification]
    cases s.phase <;> by_cases hm : m = "initialized" <;> by_cases hn : t.notifications m = true <;>
      simp_all

/-- **C16** (exit). `exit` ends the loop in every phase: no later message has any effect on what is
sent, handled or started. -/
theorem exit_ends_session (t : Table) (s : Lsp I V H) :
    ∃ s', step t s (.notification "exit") = some s' ∧ s'.exited = true ∧
      (∀ r, step t s' (.request r) = some s') ∧ (∀ m, step t s' (.notification m) = some s') ∧
      (∀ id, step t s' (.response id) = some s') := by
  refine ⟨_, rfl, ?_⟩
  by_cases h : s.exited = true
  · simp [step, h]
  · have h : s.exited = false := by simpa using h
    simp [step, h, onNotification]

/-- **C52**, the half that holds: after `shutdown` and `exit` the result is a success.
Missing: that it is a failure without `shutdown`, which is refuted below. -/
theorem exit_reported_partial (t : Table) (es : List (Event I V H)) (s : Lsp I V H) (_h : ShutDown es) (_hr : run t Lsp.init es = some s)
    (_he : s.exited = true) : loopResult s = .ok () := rfl

/-- **C52**, refuted: the loop's result does not depend on whether `shutdown` preceded `exit`. -/
theorem exit_without_shutdown_reported_as_success :
    ∃ (t : Table) (es : List (Event Nat Nat Nat)) (s : Lsp Nat Nat Nat),
      run t Lsp.init es = some s ∧ s.exited = true ∧ ¬ ShutDown es ∧ loopResult s = .ok () := by
  refine ⟨⟨fun _ => true, fun _ => true, fun _ => true⟩, [.notification "exit"], _, rfl, rfl, ?_, rfl⟩
  rintro ⟨a, r, b, h, -, -⟩
  rcases a with _ | ⟨x, a⟩
  · cases h
  · injection h with h1 h2
    simp at h2

/-- **C48** (ids). Requests the server sends to the client carry pairwise different ids (up to the
2³² an `i32` can count). -/
theorem outgoing_ids_distinct (t : Table) (es : List (Event I V H)) (s : Lsp I V H)
    (hb : sends es ≤ 2 ^ 32) (hr : run t Lsp.init es = some s) :
    s.issued.length = sends es ∧ (s.issued.map Prod.fst).Nodup := by
  obtain ⟨h, hl⟩ := out_run t hb hr
  exact ⟨hl, issued_nodup h (by omega)⟩

/-- **C48** (at most once). Every continuation that ran is the one registered with the id of the
response, and no id's continuation ran twice. -/
theorem continuations_run_once (t : Table) (es : List (Event I V H)) (s : Lsp I V H)
    (hb : sends es ≤ 2 ^ 32) (hr : run t Lsp.init es = some s) :
    (s.ran.map Prod.fst).Nodup ∧ ∀ p ∈ s.ran, p ∈ s.issued := by
  obtain ⟨h, -⟩ := out_run t hb hr
  exact ⟨h.ndRan, h.ran⟩

/-- **C48** (exactly then). In an open session a response to an outstanding request runs exactly that
request's continuation; a response with an unknown or already answered id changes nothing. -/
theorem response_runs_its_continuation (t : Table) (es : List (Event I V H)) (s : Lsp I V H)
    (ht : t.requests "shutdown" = true) (hb : sends es ≤ 2 ^ 32) (hne : NoExit es)
    (hr : run t Lsp.init es = some s) (ho : Opened es) (hns : ¬ ShutDown es) :
    (∀ p ∈ s.issued, p.1 ∉ s.ran.map Prod.fst →
      ∃ s', step t s (.response p.1) = some s' ∧ s'.ran = s.ran ++ [p]) ∧
    (∀ id, id ∉ s.issued.map Prod.fst ∨ id ∈ s.ran.map Prod.fst →
      step t s (.response id) = some s) := by
  obtain ⟨h, hl⟩ := out_run t hb hr
  have hb' : s.issued.length ≤ 2 ^ 32 := by omega
  have hex := not_exited t (s := Lsp.init) rfl hne hr
  have ph := phaseOf t ht es hne hr
  have hp : s.phase = .ready := by
    rcases ph.opened.mp ho with h | h
    · exact h
    · exact absurd (ph.shut.mpr h) hns
  constructor
  · intro p hpi hnr
    have hpend : p ∈ s.outPending := by
      rcases h.cover p hpi with h' | h'
      · exact h'
      · exact absurd (List.mem_map_of_mem h') hnr
    simp only [step, hex, Bool.false_eq_true, if_false, onResponse, hp, if_true]
    cases hf : s.outPending.find? (fun q => decide (q.1 = p.1)) with
    | none => exact absurd (List.find?_eq_none.mp hf p hpend) (by simp)
    | some q =>
      have hq := List.mem_of_find?_eq_some hf
      have he : q.1 = p.1 := by simpa using List.find?_some hf
      have : q = p := issued_unique h hb' (h.pend q hq) hpi he
      exact ⟨_, rfl, by simp [this]⟩
  · intro id hid
    simp only [step, hex, Bool.false_eq_true, if_false, onResponse, hp, if_true]
    cases hf : s.outPending.find? (fun q => decide (q.1 = id)) with
    | none => rfl
    | some q =>
      have hq := List.mem_of_find?_eq_some hf
      have he : q.1 = id := by simpa using List.find?_some hf
      rcases hid with h' | h'
      · exact absurd (List.mem_map.mpr ⟨q, h.pend q hq, he⟩) h'
      · exact absurd (he ▸ h') (h.disj q hq)

/-- Non-vacuity of the LSP theorems: a session with an initialisation, a deferred request that is
completed after an unknown request, a server request with its response, a shutdown and an exit. -/
def session : List (Event Nat Nat Nat) :=
  [.request ⟨0, "initialize", true, "", .known, .sched (.done (.ok 7))⟩, .notification "initialized",
   .request ⟨1, "textDocument/hover", true, "", .known, .sched .future⟩, .send 5,
   .request ⟨2, "nonsense", true, "", .known, .okNone⟩, .response 0, .response 0, .complete 1 (.ok 9),
   .cancel 1, .request ⟨3, "shutdown", true, "", .known, .sched (.done .null)⟩,
   .request ⟨4, "textDocument/hover", true, "", .known, .sched .future⟩, .notification "exit"]

example : (run ⟨fun m => m ≠ "nonsense", fun _ => true, fun _ => true⟩ Lsp.init session).map
      (fun s => (s.q.sent, s.ran)) =
    some ([(0, .ok 7), (2, .err .methodNotFound), (1, .ok 9), (3, .null), (4, .err .invalidRequest)],
      [(0, 5)]) := by decide

example : (requestIds session).Nodup ∧ Opened session ∧ ShutDown session := by
  refine ⟨by decide, ?_, ?_⟩
  · exact ⟨session.take 1, session.drop 2, rfl, _, List.mem_cons_self .., rfl, rfl⟩
  · exact ⟨session.take 9, _, session.drop 10, rfl,
      ⟨session.take 1, (session.take 9).drop 2, rfl, _, List.mem_cons_self .., rfl, rfl⟩, rfl⟩

/-! ## Debug adapter -/

/-- The sequence number fits an `i32`, as all clients' do in practice. -/
def SmallSeq (n : Int) : Prop := -2 ^ 31 ≤ n ∧ n < 2 ^ 31

theorem seqToId_small {n : Int} (h : SmallSeq n) : seqToId n = n := by
  unfold SmallSeq at h
  unfold seqToId
  rw [Int.bmod_def]
  split <;> omega

/-- **C18** (partial: sequence numbers below 2³¹). Each DAP request is answered at most once, under its
own sequence number, and is answered once its handler has produced a result. -/
theorem dap_answered_once_partial (t : Table) (pre post : List (DapEvent V)) (r : Request Int V)
    (hd : (seqs (pre ++ .request r :: post)).Nodup)
    (hsm : ∀ n ∈ seqs (pre ++ .request r :: post), SmallSeq n) :
    let sent := ((Dap.init : Dap V).run t (pre ++ .request r :: post)).q.sent.map Prod.fst
    sent.Nodup ∧ (∀ n ∈ sent, n ∈ seqs (pre ++ .request r :: post)) ∧
    (¬ Deferred r ∨ (∃ v, DapEvent.complete r.id v ∈ post) → sent.count r.id = 1) := by
  intro sent
  have hmap : (seqs (pre ++ .request r :: post)).map seqToId = seqs (pre ++ .request r :: post) := by
    conv => rhs; rw [← List.map_id (seqs (pre ++ .request r :: post))]
    exact List.map_congr_left fun n hn => seqToId_small (hsm n hn)
  have hinv := dinv_run t (dinv_init (V := V)) (hmap.symm ▸ hd) (by simp)
  rw [hmap] at hinv
  refine ⟨hinv.qinv.ndSent, ?_, ?_⟩
  · intro n hn
    have := hinv.sentUsed n hn
    simpa using this
  · intro hset
    apply Util.count_eq_one hinv.qinv.ndSent
    rw [seqs_append] at hd hmap hsm
    rw [List.map_append] at hmap
    have hnd := List.nodup_append.mp hd
    have hmpre : (seqs pre).map seqToId = seqs pre := (List.append_inj hmap (by simp)).1
    have hmpost : (seqs (.request r :: post)).map seqToId = seqs (.request r :: post) :=
      (List.append_inj hmap (by simp)).2
    simp only [seqs, List.map_cons, List.cons.injEq] at hmpost
    have hpre := dinv_run t (dinv_init (V := V)) (es := pre) (hmpre.symm ▸ hnd.1) (by simp)
    rw [hmpre] at hpre
    have hrid : seqToId r.id = r.id := hmpost.1
    have hfr : seqToId r.id ∉ (seqs pre).reverse ++ [] := by
      rw [hrid]; intro hm
      simp only [List.append_nil, List.mem_reverse] at hm
      exact hnd.2.2 _ hm r.id (by simp [seqs]) rfl
    have h1 := dinv_request t hpre hfr
    have sv := dap_served t hpre.qinv (r := r) (fun hm => hfr (hpre.sentUsed _ hm))
    have hnd2 : (r.id :: seqs post).Nodup := hnd.2.1
    show r.id ∈ (((Dap.init : Dap V).run t (pre ++ .request r :: post)).q.sent.map Prod.fst)
    have hsplit : (Dap.init : Dap V).run t (pre ++ .request r :: post) =
        (((Dap.init : Dap V).run t pre).onRequest t r).run t post := by
      simp [Dap.run, Dap.step]
    rw [hsplit]
    have := dap_settled t (es := post) h1 (by rw [hmpost.2]; exact (List.nodup_cons.mp hnd2).2) (by
      intro q hq hm
      have hq' : seqToId q = q := seqToId_small (hsm q (by simp [seqs, hq]))
      rw [hq'] at hm
      rcases List.mem_cons.mp hm with e | hm
      · rw [hrid] at e; exact (List.nodup_cons.mp hnd2).1 (e ▸ hq)
      · simp only [List.append_nil, List.mem_reverse] at hm
        exact hnd.2.2 _ hm q (by simp [seqs, hq]) rfl) (id := seqToId r.id) (by
        rcases sv.outcome with h | h
        · exact Or.inr h
        · exact Or.inl h.2.1) (by
        rcases sv.outcome with h | h
        · exact Or.inl h
        · rcases hset with h' | ⟨v, h'⟩
          · exact absurd h.1 h'
          · exact Or.inr ⟨r.id, v, rfl, h'⟩)
    rwa [hrid] at this

/-- **C18**, refuted for large sequence numbers: the response carries the number truncated to 32 bits,
so the client sees an answer to a request it never sent and none to its own. -/
theorem dap_large_seq_misanswered (t : Table) (r : Request Int V) (h : r.id = 2 ^ 31) :
    ((Dap.init : Dap V).run t [.request r]).q.sent.map Prod.fst = [-2 ^ 31] ∨ Deferred r := by
  by_cases hd : Deferred r
  · exact Or.inr hd
  · left
    have hq : QInv (Dap.init : Dap V).q := (dinv_init (V := V)).qinv
    have sv := dap_served t (s := Dap.init) (r := r) hq (by simp [Dap.init, Queue.init])
    have hid : seqToId r.id = -2 ^ 31 := by rw [h]; decide
    rw [hid] at sv
    have hm : (-2 ^ 31 : Int) ∈ ((Dap.init : Dap V).onRequest t r).q.sent.map Prod.fst := by
      rcases sv.outcome with h' | h'
      · exact h'
      · exact absurd h'.1 hd
    have hall : ∀ x ∈ ((Dap.init : Dap V).onRequest t r).q.sent.map Prod.fst, x = -2 ^ 31 := by
      intro x hx
      rcases sv.sentMem x hx with h' | h'
      · simp [Dap.init, Queue.init] at h'
      · exact h'
    have hnd := sv.inv.ndSent
    show ((Dap.init : Dap V).onRequest t r).q.sent.map Prod.fst = [-2 ^ 31]
    generalize ((Dap.init : Dap V).onRequest t r).q.sent.map Prod.fst = l at hm hall hnd
    match l, hm, hall, hnd with
    | [a], _, hall, _ => simp [hall a (by simp)]
    | a :: b :: l, _, hall, hnd =>
      have := hall a (by simp); have h2 := hall b (by simp)
      simp [this, h2] at hnd

theorem dap_phase (t : Table) (ht : t.requests "disconnect" = true) (es : List (DapEvent V)) :
    let p := ((Dap.init : Dap V).run t es).phase
    (p = .uninitialized ↔ ¬ DapStarted es) ∧ (p = .shuttingDown ↔ DapDisconnected es) ∧
      p ≠ .initializing := by
  induction es using Util.reverseInd with
  | nil => simp [Dap.run, Dap.init, DapStarted, DapDisconnected]
  | append_singleton es e ih =>
    obtain ⟨h1, h2, h3⟩ := ih
    have hst : DapStarted (es ++ [e]) ↔ DapStarted es ∨
        ∃ r, e = .request r ∧ r.method = "initialize" ∧ r.paramsOk = true := by
      unfold DapStarted
      constructor
      · rintro ⟨r, hm, h⟩
        rcases List.mem_append.mp hm with hm | hm
        · exact Or.inl ⟨r, hm, h⟩
        · exact Or.inr ⟨r, (List.mem_singleton.mp hm).symm, h⟩
      · rintro (⟨r, hm, h⟩ | ⟨r, rfl, h⟩)
        · exact ⟨r, List.mem_append_left _ hm, h⟩
        · exact ⟨r, by simp, h⟩
    have hdis : DapDisconnected (es ++ [e]) ↔ DapDisconnected es ∨
        ∃ r, e = .request r ∧ r.method = "disconnect" ∧ DapStarted es := by
      unfold DapDisconnected
      constructor
      · rintro ⟨a, r, b, h, ho, hm⟩
        rcases (split_snoc es e (.request r) DapStarted).mp ⟨a, b, h, ho⟩ with ⟨a, b, h, ho⟩ | ⟨h, ho⟩
        · exact Or.inl ⟨a, r, b, h, ho, hm⟩
        · exact Or.inr ⟨r, h, hm, ho⟩
      · rintro (⟨a, r, b, h, ho, hm⟩ | ⟨r, h, hm, ho⟩)
        · obtain ⟨a, b, h, ho⟩ := (split_snoc es e (.request r) DapStarted).mpr (Or.inl ⟨a, b, h, ho⟩)
          exact ⟨a, r, b, h, ho, hm⟩
        · obtain ⟨a, b, h, ho⟩ := (split_snoc es e (.request r) DapStarted).mpr (Or.inr ⟨h, ho⟩)
          exact ⟨a, r, b, h, ho, hm⟩
    have hrun : (Dap.init : Dap V).run t (es ++ [e]) = Dap.step t ((Dap.init : Dap V).run t es) e := by
      simp [Dap.run]
    simp only [hrun, hst, hdis]
    generalize (Dap.init : Dap V).run t es = s at h1 h2 h3 ⊢
    cases e with
    | complete seq r => simpa [Dap.step] using ⟨h1, h2, h3⟩
    | request r =>
      have : (Dap.step t s (.request r)).phase = match s.phase with
          | .uninitialized => if r.method = "initialize" ∧ r.paramsOk = true then .ready else .uninitialized
          | .initializing => .initializing
          | .ready => if r.method = "disconnect" then .shuttingDown else .ready
          | .shuttingDown => .shuttingDown := by
        simp only [Dap.step, Dap.onRequest]
        cases hp : s.phase
        · by_cases hm : r.method = "initialize" <;> by_cases ho : r.paramsOk = true <;> simp [hm, ho, hp]
        · simp [hp]
        · by_cases hm : r.method = "initialize"
          · simp [hm, hp]
          · by_cases hm2 : r.method = "disconnect"
            · simp [hm2, ht]
            · by_cases ho : t.requests r.method = true <;> simp [hm, hm2, ho, hp]
        · simp [hp]
      simp only [this]
      cases hp : s.phase <;> simp only [hp] at h1 h2 h3 ⊢ <;> grind

/-- **C18** (phases). After any history: a DAP request before `initialize` is refused with
`ServerNotInitialized`; a second `initialize`, and anything after `disconnect`, with `InvalidRequest`.
A refused request has no other effect. -/
theorem dap_refusals (t : Table) (ht : t.requests "disconnect" = true) (es : List (DapEvent V))
    (r : Request Int V) (hd : (seqs (es ++ [.request r])).Nodup)
    (hsm : ∀ n ∈ seqs (es ++ [.request r]), SmallSeq n) :
    let s := (Dap.init : Dap V).run t es
    let refused (e : Err) := s.onRequest t r = { s with q := { s.q with sent := s.q.sent ++ [(r.id, .err e)] } }
    (¬ DapStarted es → r.method ≠ "initialize" → refused .serverNotInitialized) ∧
    (DapStarted es → r.method = "initialize" → refused .invalidRequest) ∧
    (DapDisconnected es → refused .invalidRequest) := by
  intro s refused
  obtain ⟨h1, h2, h3⟩ := dap_phase t ht es
  rw [seqs_append] at hd hsm
  have hnd := List.nodup_append.mp hd
  have hmap : (seqs es).map seqToId = seqs es := by
    conv => rhs; rw [← List.map_id (seqs es)]
    exact List.map_congr_left fun n hn => seqToId_small (hsm n (List.mem_append_left _ hn))
  have hid : seqToId r.id = r.id := seqToId_small (hsm _ (by simp [seqs]))
  have hinv := dinv_run t (dinv_init (V := V)) (es := es) (hmap.symm ▸ hnd.1) (by simp)
  have hf : r.id ∉ s.q.pending := by
    intro hm
    have := hinv.pendUsed _ hm
    rw [hmap] at this
    simp only [List.append_nil, List.mem_reverse] at this
    exact hnd.2.2 _ this r.id (by simp [seqs]) rfl
  change (s.phase = _ ↔ _) at h1
  change (s.phase = _ ↔ _) at h2
  change s.phase ≠ _ at h3
  simp only [refused]
  clear_value s
  obtain ⟨ph, q⟩ := s
  simp only at hf h1 h2 h3
  refine ⟨?_, ?_, ?_⟩
  · intro hp hm
    have hp := h1.mpr hp
    subst hp
    simp only [Dap.onRequest, hm, if_false, hid, refuse_eq hf]
  · intro hp hm
    cases ph with
    | uninitialized => exact absurd hp (h1.mp rfl)
    | initializing => exact absurd rfl h3
    | ready => simp only [Dap.onRequest, hm, if_true, hid, refuse_eq hf]
    | shuttingDown => simp only [Dap.onRequest, hid, refuse_eq hf]
  · intro hp
    have hp := h2.mpr hp
    subst hp
    simp only [Dap.onRequest, hid, refuse_eq hf]

example : let r : Request Int Nat := ⟨3, "initialize", true, "", .known, .sched .future⟩
    (seqs [DapEvent.request r, .complete 3 (.ok 1)]).Nodup ∧
    ((Dap.init : Dap Nat).run ⟨fun _ => true, fun _ => true, fun _ => true⟩
      [.request r, .complete 3 (.ok 1)]).q.sent = [(3, .ok 1)] := by decide

end Tinymist.Server
