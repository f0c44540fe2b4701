import Verif.Lemmas.TokenCacheKept
/-!
# C02: delta responses are relative to what the client was really sent

The client is specified in `Verif/Spec/TokenCache.lean`.  `run init ops` is an arbitrary history of
request arrivals, answers (computed on worker threads in any order), releases and cache clears; its
result lists, in order, the tokens computed by the server and the reply sent for them.
-/
namespace Tinymist.TokenCache
open Tinymist.TokenDelta Tinymist.TokenDelta.Spec Spec

/-- **C02 (partial: histories without a cache clear).** In every history the server never panics,
the stream the client reconstructs from each reply — applying a delta to what it holds for the id
it quoted — is the stream the server computed, and no result id is used twice.  Missing: histories
containing `clear`, for which the statement is false (`clear_reuses_result_ids`, `clear_panics`). -/
theorem client_streams_correct_partial (ops : List Op) (hops : ∀ op ∈ ops, op ≠ .clear) :
    ∃ s outs, run init ops = some (s, outs) ∧
      (clientAfter (outs.map (·.2))).shown = outs.map (fun o => some (wire o.1)) ∧
      (outs.map (·.2.id)).Nodup := by
  obtain ⟨s, outs, h1, h2⟩ := inv_run ops (by
    intro op ho
    have := hops op ho
    cases op <;> simp_all [Op.isClear]) inv_init
  simp only [List.nil_append] at h2
  exact ⟨s, outs, h1, h2.shown, h2.lnd⟩

private def tA : SemanticToken := ⟨0, 0, 1, 1, 0⟩
private def tB : SemanticToken := ⟨0, 1, 1, 2, 0⟩

/-- Non-vacuity: overlapping requests, one quoting a known id, one a not yet issued id, one
garbage; the second is really answered by a delta. -/
example :
    let ops := [Op.acquire "a.typ" none, .respond 0 [tA, tB], .acquire "a.typ" (some 1),
      .acquire "a.typ" (some 9), .respond 1 [tA, tA, tB], .release 0, .acquire "a.typ" (some 0),
      .respond 3 [tB], .respond 2 [], .release 1, .release 2, .release 3]
    (∀ op ∈ ops, op ≠ .clear) ∧
    (run init ops).map (fun r => r.2.map (·.2)) = some
      [⟨"a.typ", none, 1, .full [tA, tB]⟩, ⟨"a.typ", some 1, 2, .delta [⟨5, 0, [tA]⟩]⟩,
       ⟨"a.typ", none, 4, .full [tB]⟩, ⟨"a.typ", some 9, 3, .full []⟩] := by
  refine ⟨by simp, by decide⟩

/-- **C02 is false with cache clears (1).** Clearing the caches restarts the id counter, so the
same result id is sent for two different streams of the same document: a client that still quotes
the first one is given a delta relative to the second. -/
theorem clear_reuses_result_ids :
    ∃ ops s outs, run init ops = some (s, outs) ∧
      ∃ a ∈ outs, ∃ b ∈ outs, a.2.path = b.2.path ∧ a.2.id = b.2.id ∧ a.1 ≠ b.1 := by
  refine ⟨[.acquire "a.typ" none, .respond 0 [tA], .release 0, .clear, .acquire "a.typ" none,
    .respond 1 [tB], .release 1], _, _, rfl, ?_⟩
  refine ⟨_, List.mem_cons_self, _, List.mem_cons_of_mem _ List.mem_cons_self, ?_⟩
  decide

/-- **C02 is false with cache clears (2).** A client that pipelines three delta requests quoting
its last id after a clear receives, for the third, a delta that produces a wrong stream when
applied to the stream it holds under that id (`[tA, tA]`, sent before the clear; the replies to the
first two have not reached it). -/
theorem clear_makes_delta_wrong :
    ∃ ops s outs, run init ops = some (s, outs) ∧
      -- what the client was sent under id 2 before the clear
      ([tA, tA], { path := "a.typ", quoted := none, id := 2, body := .full [tA, tA] }) ∈ outs ∧
      -- the last reply quotes id 2 but does not produce the tokens the server computed
      ∃ truth edits, outs.getLast? = some (truth, ⟨"a.typ", some 2, 3, .delta edits⟩) ∧
        clientApply (wire [tA, tA]) edits ≠ wire truth := by
  refine ⟨[.acquire "a.typ" none, .respond 0 [tA], .release 0, .acquire "a.typ" none,
    .respond 1 [tA, tA], .release 1, .clear,
    .acquire "a.typ" (some 2), .acquire "a.typ" (some 2), .respond 3 [tB],
    .acquire "a.typ" (some 2), .respond 4 [tB, tB]], _, _, rfl, ?_, ?_⟩
  · decide
  · exact ⟨_, _, rfl, by decide⟩

/-- **C02 is false with cache clears (3).** Clearing the cache while requests are in flight makes
the server panic when they are released. -/
theorem clear_panics : ∃ ops, run init ops = none :=
  ⟨[.acquire "a.typ" none, .clear, .acquire "a.typ" none, .release 0, .release 1], rfl⟩

theorem notClear {ops : List Op} (hops : ∀ op ∈ ops, op ≠ .clear) : ∀ op ∈ ops, op.isClear = false := by
  intro op ho
  have := hops op ho
  cases op <;> simp_all [Op.isClear]

/-- The context of a request that quotes a result in the cache. -/
theorem acquire_ctx (s : State) (p : Path) (i ref : Nat) (m : Manager) (sl : Slot) (hi0 : i ≠ 0) (hm : s.managers p = some m)
    (hn : (m.slots.map (·.1)).Nodup) (hs : (i, ref) ∈ m.slots) (hh : s.heap ref = some sl) :
    ∃ nref, (acquire s p (some i)).ctxs =
      s.ctxs ++ [(s.nextCtx, ⟨p, m.estimated, some i, sl.data, s.nextId + 1, nref, false⟩)] := by
  have hf : ∀ l, findRevision p { m with locked := l } s.heap s.nextRef i = ({ m with locked := l }, s.heap, s.nextRef, ref) := by
    intro l
    unfold findRevision
    simp only [slotBase_found hn hs, if_true]
  unfold acquire
  simp only [hm, Option.getD_some, Option.filter_some, decide_not, hi0, decide_false, Bool.not_false, if_true, hf, hh,
    Option.bind_some]
  exact ⟨_, rfl⟩

/-- **C02, when a delta is given.** A client that quotes a result it was sent, and that is still known (no later request
was made for the document, or a request for it made not later than it is not yet over), is answered with a delta from
that result. The number of the new context and the new id are those of the request. -/
theorem known_gets_delta (ops : List Op) (hops : ∀ op ∈ ops, op ≠ .clear) (hh : Honest ops) :
    ∃ s outs, run init ops = some (s, outs) ∧
      ∀ o ∈ outs, StillKnown ops o.2.path o.2.id → ∀ toks, ∃ s',
        run init (ops ++ [.acquire o.2.path (some o.2.id), .respond (asked ops).length toks]) =
          some (s', outs ++ [(toks, ⟨o.2.path, some o.2.id, (asked ops).length + 1, .delta (tokenDelta o.1 toks)⟩)]) := by
  obtain ⟨s, outs, h1, hi, hk⟩ := kept_run ops (notClear hops) hh
  refine ⟨s, outs, h1, fun o ho hknown toks => ?_⟩
  obtain ⟨j, hj, hja⟩ := hk.logAsked o ho
  obtain ⟨m, hm, hle⟩ := hk.askedEst j _ hja
  obtain ⟨ref, sl, hs, hheap, hdata⟩ := hk.logKeep o ho m hm (by
    rcases hknown with hlast | ⟨k, hki, hka, hrel⟩
    · left
      obtain ⟨j', hj', hja'⟩ := hk.estAsked _ _ hm
      have := hlast j' hja'
      omega
    · right
      obtain ⟨c, hc⟩ := hk.live k (by rw [hk.handles]; exact (List.getElem?_eq_some_iff.mp hka).1) hrel
      have h2 := hk.ctxEst _ hc
      have h3 := (hk.ctxAsked _ hc).2
      simp only [] at h2 h3
      rw [hka] at h3
      exact ⟨_, hc, by simpa using h3.symm, by simp only []; omega⟩)
  obtain ⟨nref, hctx⟩ := acquire_ctx s o.2.path o.2.id ref m sl (by omega) hm (hk.nodup _ _ hm) hs hheap
  have hi' := inv_acquire hi o.2.path (some o.2.id)
  have hin : (s.nextCtx, (⟨o.2.path, m.estimated, some o.2.id, sl.data, s.nextId + 1, nref, false⟩ : Ctx)) ∈
      (acquire s o.2.path (some o.2.id)).ctxs := by rw [hctx]; simp
  obtain ⟨s', rep, hr, _⟩ := inv_respond hi' hin rfl toks
  have hrep : rep = ⟨o.2.path, some o.2.id, s.nextId + 1, .delta (tokenDelta o.1 toks)⟩ := by
    unfold respond at hr
    split at hr
    · cases hr
    · split at hr
      · cases hr
      · simp only [Option.some.injEq, Prod.mk.injEq] at hr
        rw [← hr.2, hdata]
        rfl
  have hlook : (acquire s o.2.path (some o.2.id)).ctxs.lookup s.nextCtx =
      some ⟨o.2.path, m.estimated, some o.2.id, sl.data, s.nextId + 1, nref, false⟩ := by
    cases hl : (acquire s o.2.path (some o.2.id)).ctxs.lookup s.nextCtx with
    | none => rw [List.lookup_eq_none_iff] at hl; exact absurd (hl _ hin) (by simp)
    | some c =>
      have := nodup_map_inj hi'.hnd (lookup_mem hl) hin rfl
      simp only [Prod.mk.injEq, true_and] at this
      rw [this]
  refine ⟨s', ?_⟩
  have hids : s.nextId = s.nextCtx := hk.ids.trans hk.handles.symm
  rw [hids] at hlook hr hrep
  rw [run_append, h1, ← hk.handles]
  simp only [Option.bind_some, run, step, hlook, Bool.false_eq_true, if_false, hr, hrep, Option.map_some, Option.toList_some,
    Option.toList_none, List.nil_append, List.append_nil]

/-- **C02, old results are freed.** While no request for a document is in flight, at most one of its results is kept. -/
theorem idle_keeps_one (ops : List Op) (hops : ∀ op ∈ ops, op ≠ .clear) (hh : Honest ops) :
    ∃ s outs, run init ops = some (s, outs) ∧
      ∀ p m, s.managers p = some m → (∀ x ∈ s.ctxs, x.2.path ≠ p) → m.slots.length = 1 := by
  obtain ⟨s, outs, h1, hi, hk⟩ := kept_run ops (notClear hops) hh
  refine ⟨s, outs, h1, fun p m hm hno => ?_⟩
  have h2 := hk.free p m hm hno
  have h3 := hk.nodup p m hm
  obtain ⟨ref, h4⟩ := hk.tip p m hm
  match hsl : m.slots, h2, h3, h4 with
  | [x], _, _, _ => rfl
  | x :: y :: l, h2, h3, _ =>
    exfalso
    have e1 := h2 x (by simp)
    have e2 := h2 y (by simp)
    simp only [List.map_cons, List.nodup_cons, List.mem_cons, not_or] at h3
    exact h3.1.1 (e1.trans e2.symm)

/-- Meets the hypotheses: two documents with overlapping requests. When all are over, the last result of `a.typ` is known
and the first one is forgotten. -/
example :
    let ops := [Op.acquire "a.typ" none, .respond 0 [tA], .acquire "b.typ" none, .acquire "a.typ" (some 1), .release 0,
      .respond 2 [tA, tB], .release 2, .respond 1 [], .release 1]
    (∀ op ∈ ops, op ≠ .clear) ∧ asked ops = ["a.typ", "b.typ", "a.typ"] ∧
    (run init (ops ++ [.acquire "a.typ" (some 3), .respond 3 [tA]])).map (fun r => (r.2.map (·.2)).getLast?) =
      some (some ⟨"a.typ", some 3, 4, .delta [⟨5, 5, []⟩]⟩) ∧
    (run init ops).map (fun r => (r.1.ctxs.length, (r.1.managers "a.typ").map (·.slots.length))) = some (0, some 1) ∧
    -- an id that is forgotten
    (run init (ops ++ [.acquire "a.typ" (some 1), .respond 3 [tA]])).map (fun r => (r.2.map (·.2)).getLast?) =
      some (some ⟨"a.typ", some 1, 4, .full [tA]⟩) := by
  refine ⟨by simp, by decide, by decide, by decide, by decide⟩

/-- The client above is honest. -/
example : Honest [Op.acquire "a.typ" none, .respond 0 [tA], .acquire "b.typ" none, .acquire "a.typ" (some 1), .release 0,
      .respond 2 [tA, tB], .release 2, .respond 1 [], .release 1] := by
  intro pre p i post he
  match pre, he with
  | [_, _, _], he =>
    simp only [List.cons_append, List.nil_append, List.cons.injEq, Op.acquire.injEq, Option.some.injEq] at he
    obtain ⟨rfl, rfl, rfl, ⟨rfl, rfl⟩, rfl⟩ := he
    exact .inr ⟨_, _, rfl, ([tA], ⟨"a.typ", none, 1, .full [tA]⟩), by decide, rfl, rfl⟩
  | [], he => simp at he
  | [_], he => simp at he
  | [_, _], he => simp at he
  | [_, _, _, _], he => simp at he
  | [_, _, _, _, _], he => simp at he
  | [_, _, _, _, _, _], he => simp at he
  | [_, _, _, _, _, _, _], he => simp at he
  | [_, _, _, _, _, _, _, _], he => simp at he
  | _ :: _ :: _ :: _ :: _ :: _ :: _ :: _ :: _ :: _, he => simp at he

end Tinymist.TokenCache
