import Verif.Spec.PreviewRender

/-!
# C42: the preview ends up showing the latest document
-/

namespace Tinymist.PreviewRender

variable {D : Type}

theorem isFull_iff (got : List Got) : isFull got = true ↔ Got.msg .full ∈ got := by
  unfold isFull
  rw [List.any_eq_true]
  constructor
  · rintro ⟨g, hg, h⟩
    match g, h with
    | .msg .full, _ => exact hg
  · intro h; exact ⟨_, h, rfl⟩

/-- The announcement of the latest document is on its way. -/
def Owed (s : State D) : Prop :=
  s.posting ≠ 0 ∨ s.lagged = true ∨ .inc ∈ s.queue ∨
    (∃ got, (s.phase = .drain got ∨ s.phase = .ready got) ∧ (Got.msg .inc ∈ got ∨ Got.lagged ∈ got))

structure Inv (s : State D) (view : Option D) : Prop where
  view : s.view = view
  sent : shown s = s.current
  latest : (∀ t ∈ s.turns, ¬ t.Mixed) → s.turns ≠ [] → s.current = s.view ∨ Owed s
  fresh : s.turns = [] → s.current = none
  none : s.view = none → s.current = none

theorem post_cases (cap : Nat) (s : State D) (m : Msg) :
    (post cap s m).view = s.view ∧ (post cap s m).current = s.current ∧ (post cap s m).sent = s.sent ∧
      (post cap s m).turns = s.turns ∧ (post cap s m).phase = s.phase ∧ (post cap s m).posting = s.posting ∧
      m ∈ (post cap s m).queue ∧
      (Msg.inc ∈ s.queue ∨ s.lagged = true → Msg.inc ∈ (post cap s m).queue ∨ (post cap s m).lagged = true) := by
  unfold post
  split
  · simp; intro h; rcases h with h | h <;> simp [h]
  · simp

theorem step_inv (cap : Nat) (s : State D) (view : Option D) (op : Op D) (h : Inv s view) :
    Inv (step cap s op) (latest view [op]) := by
  obtain ⟨h1, h2, h3, h4, h5⟩ := h
  cases op with
  | store d =>
    refine ⟨rfl, h2, ?_, h4, fun h => (nomatch h)⟩
    intro _ _
    exact .inr (.inl (by simp [step]))
  | announce =>
    simp only [step, latest]
    split
    · exact ⟨h1, h2, h3, h4, h5⟩
    · obtain ⟨p1, p2, p3, p4, p5, p6, p7, p8⟩ := post_cases cap s .inc
      refine ⟨by simp [p1, h1], by simpa [shown, p3, p2] using h2, ?_, by simpa [p4, p2] using h4,
        by simpa [p1, p2] using h5⟩
      intro _ _
      exact .inr (.inr (.inr (.inl p7)))
  | request m =>
    simp only [step, latest]
    obtain ⟨p1, p2, p3, p4, p5, p6, p7, p8⟩ := post_cases cap s m
    refine ⟨by rw [p1, h1], by simpa [shown, p3, p2] using h2, ?_, by simpa [p4, p2] using h4,
      by simpa [p1, p2] using h5⟩
    rw [p4, p1, p2]
    intro ha hb
    rcases h3 ha hb with h | h | h | h | h
    · exact .inl h
    · exact .inr (.inl (by rw [p6]; exact h))
    · rcases p8 (.inr h) with h | h
      · exact .inr (.inr (.inr (.inl h)))
      · exact .inr (.inr (.inl h))
    · rcases p8 (.inl h) with h | h
      · exact .inr (.inr (.inr (.inl h)))
      · exact .inr (.inr (.inl h))
    · exact .inr (.inr (.inr (.inr (by rw [p5]; exact h))))
  | recv =>
    simp only [step, latest]
    split
    · rename_i hp
      unfold recv
      split
      · refine ⟨h1, h2, ?_, h4, h5⟩
        intro _ _
        exact .inr (.inr (.inr (.inr ⟨_, .inl rfl, .inr (by simp)⟩)))
      · rename_i hl
        split
        · exact ⟨h1, h2, h3, h4, h5⟩
        · rename_i m q hq
          refine ⟨h1, h2, ?_, h4, h5⟩
          intro ha hb
          rcases h3 ha hb with h | h | h | h | ⟨got, h, _⟩
          · exact .inl h
          · exact .inr (.inl h)
          · exact absurd h hl
          · rw [hq] at h
            cases h with
            | head => exact .inr (.inr (.inr (.inr ⟨_, .inl rfl, .inl (by simp)⟩)))
            | tail _ h => exact .inr (.inr (.inr (.inl h)))
          · rw [hp] at h; rcases h with h | h <;> cases h
    · exact ⟨h1, h2, h3, h4, h5⟩
  | tryRecv =>
    simp only [step, latest]
    split
    · rename_i got hp
      unfold tryRecv
      split
      · refine ⟨h1, h2, ?_, h4, h5⟩
        intro _ _
        exact .inr (.inr (.inr (.inr ⟨_, .inr rfl, .inr (by simp)⟩)))
      · rename_i hl
        split
        · rename_i hq
          refine ⟨h1, h2, ?_, h4, h5⟩
          intro ha hb
          rcases h3 ha hb with h | h | h | h | ⟨got', h, hg⟩
          · exact .inl h
          · exact .inr (.inl h)
          · exact absurd h hl
          · rw [hq] at h; cases h
          · rw [hp] at h
            rcases h with h | h
            · cases h
              exact .inr (.inr (.inr (.inr ⟨_, .inr rfl, hg⟩)))
            · cases h
        · rename_i m q hq
          refine ⟨h1, h2, ?_, h4, h5⟩
          intro ha hb
          rcases h3 ha hb with h | h | h | h | ⟨got', h, hg⟩
          · exact .inl h
          · exact .inr (.inl h)
          · exact absurd h hl
          · rw [hq] at h
            cases h with
            | head => exact .inr (.inr (.inr (.inr ⟨_, .inl rfl, .inl (by simp)⟩)))
            | tail _ h => exact .inr (.inr (.inr (.inl h)))
          · rw [hp] at h
            rcases h with h | h
            · cases h
              refine .inr (.inr (.inr (.inr ⟨_, .inl rfl, ?_⟩)))
              rcases hg with hg | hg
              · exact .inl (List.mem_append_left _ hg)
              · exact .inr (List.mem_append_left _ hg)
            · cases h
    · exact ⟨h1, h2, h3, h4, h5⟩
  | render =>
    simp only [step, latest]
    split
    · rename_i got hp
      unfold render
      split
      · rename_i hv
        have hc := h5 hv
        refine ⟨h1, h2, ?_, by simp, h5⟩
        intro _ _
        exact .inl (by simp [hc, hv])
      · rename_i d hv
        refine ⟨h1, by simp [shown], ?_, by simp, by simp [hv]⟩
        intro ha _
        show some (pack s got d) = s.view ∨ _
        by_cases hf : isFull got = true
        · cases hc : s.current with
          | none => left; rw [hv]; simp [pack, hf, hc]
          | some c =>
            have hnm := ha ⟨got, s.current.isSome⟩ (by simp)
            have hf' := (isFull_iff got).mp hf
            have hgot : ¬ (Got.msg .inc ∈ got ∨ Got.lagged ∈ got) := fun hg => hnm ⟨by simp [hc], hf', hg⟩
            have hts : s.turns ≠ [] := fun h => (by rw [h4 h] at hc; cases hc)
            rcases h3 (fun t ht => ha t (by simp [ht])) hts with h | h | h | h | ⟨got', h, hg⟩
            · left; rw [← h, hc]; simp [pack, hf, hc]
            · exact .inr (.inl h)
            · exact .inr (.inr (.inl h))
            · exact .inr (.inr (.inr (.inl h)))
            · rw [hp] at h
              rcases h with h | h
              · cases h
              · cases h; exact absurd hg hgot
        · left; rw [hv]; simp [pack, hf]
    · exact ⟨h1, h2, h3, h4, h5⟩

theorem latest_append (v : Option D) (a b : List (Op D)) : latest v (a ++ b) = latest (latest v a) b := by
  induction a generalizing v with
  | nil => rfl
  | cons op a ih => cases op <;> simp [latest, ih]

theorem run_inv (cap : Nat) (v : Option D) (ops : List (Op D)) : Inv (run cap v ops) (latest v ops) := by
  have : ∀ (ops : List (Op D)) (s : State D) (w : Option D), Inv s w → Inv (ops.foldl (step cap) s) (latest w ops) := by
    intro ops
    induction ops with
    | nil => intro s w h; exact h
    | cons op ops ih =>
      intro s w h
      have := ih _ _ (step_inv cap s w op h)
      rw [← latest_append] at this
      exact this
  exact this ops _ _ ⟨rfl, rfl, fun _ h => absurd rfl h, fun _ => rfl, fun _ => rfl⟩

/-- **C42, partial.** Whatever the batches, once everything is handled and the renderer has had a turn, the page shows
the latest document, provided that no turn was mixed. Missing from the full claim: mixed turns (`stale_after_full`). -/
theorem latest_shown_partial (cap : Nat) (v : Option D) (ops : List (Op D))
    (hq : Quiet (run cap v ops)) (ht : (run cap v ops).turns ≠ []) (hm : ∀ t ∈ (run cap v ops).turns, ¬ t.Mixed) :
    shown (run cap v ops) = latest v ops := by
  have h := run_inv cap v ops
  rw [h.sent, ← h.view]
  rcases h.latest hm ht with h | h | h | h | ⟨got, h, _⟩
  · exact h
  · exact absurd hq.2.2.2 h
  · rw [hq.2.1] at h; cases h
  · rw [hq.1] at h; cases h
  · rw [hq.2.2.1] at h; rcases h with h | h <;> cases h

/-- **C42, catching up.** Any turn without a request for the full document leaves the page with the document that is
the latest at that moment, whatever happened before. -/
theorem ordinary_turn_shows_latest (cap : Nat) (v : Option D) (ops : List (Op D)) (got : List Got)
    (hp : (run cap v ops).phase = .ready got) (hg : Got.msg .full ∉ got) (hv : latest v ops ≠ none) :
    shown (run cap v (ops ++ [.render])) = latest v ops := by
  have h := run_inv cap v ops
  have hrun : run cap v (ops ++ [.render]) = step cap (run cap v ops) .render := by
    unfold run; rw [List.foldl_append]; rfl
  rw [hrun]
  have hf : isFull got = false := by
    cases hf : isFull got with
    | false => rfl
    | true => exact absurd ((isFull_iff got).mp hf) hg
  simp only [step, hp]
  unfold render
  rw [← h.view] at hv ⊢
  split
  · rename_i hn; exact absurd hn hv
  · rename_i d hd
    rw [hd]; simp [shown, pack, hf]

/-- The page is only ever sent documents that were compiled: the latest one or one it was sent before. -/
theorem sends_known (cap : Nat) (v : Option D) (ops : List (Op D)) (d : D) (hd : d ∈ (run cap v ops).sent) :
    v = some d ∨ Op.store d ∈ ops := by
  have : ∀ (ops : List (Op D)) (s : State D) (P : D → Prop),
      (∀ d, d ∈ s.sent ∨ s.current = some d ∨ s.view = some d → P d) →
      ∀ d, d ∈ (ops.foldl (step cap) s).sent → P d ∨ Op.store d ∈ ops := by
    intro ops
    induction ops with
    | nil => intro s P h d hd; exact .inl (h d (.inl hd))
    | cons op ops ih =>
      intro s P h d hd
      have := ih (step cap s op) (fun d => P d ∨ op = .store d) ?_ d hd
      · rcases this with (h | h) | h
        · exact .inl h
        · exact .inr (by rw [h]; exact List.mem_cons_self)
        · exact .inr (List.mem_cons_of_mem _ h)
      · intro d hd
        cases op with
        | store e =>
          simp only [step] at hd
          rcases hd with hd | hd | hd
          · exact .inl (h d (.inl hd))
          · exact .inl (h d (.inr (.inl hd)))
          · cases hd; exact .inr rfl
        | announce =>
          simp only [step] at hd
          split at hd
          · exact .inl (h d hd)
          · obtain ⟨p1, p2, p3, _⟩ := post_cases cap s .inc
            rw [p1, p2, p3] at hd
            exact .inl (h d hd)
        | request m =>
          simp only [step] at hd
          obtain ⟨p1, p2, p3, _⟩ := post_cases cap s m
          rw [p1, p2, p3] at hd
          exact .inl (h d hd)
        | recv =>
          simp only [step] at hd
          left; apply h
          split at hd
          · unfold recv at hd
            split at hd
            · exact hd
            · split at hd <;> exact hd
          · exact hd
        | tryRecv =>
          simp only [step] at hd
          left; apply h
          split at hd
          · unfold tryRecv at hd
            split at hd
            · exact hd
            · split at hd <;> exact hd
          · exact hd
        | render =>
          simp only [step] at hd
          left
          split at hd
          · unfold render at hd
            split at hd
            · exact h d hd
            · rename_i got _ _ e hv
              have hpk : ∀ d, pack s got e = d → P d := by
                intro d hd
                unfold pack at hd
                split at hd
                · cases hc : s.current with
                  | none => rw [hc] at hd; subst hd; exact h _ (.inr (.inr hv))
                  | some c => rw [hc] at hd; subst hd; exact h _ (.inr (.inl hc))
                · subst hd; exact h _ (.inr (.inr hv))
              rcases hd with hd | hd | hd
              · simp only [List.mem_append, List.mem_singleton] at hd
                rcases hd with hd | hd
                · exact h d (.inl hd)
                · exact hpk d hd.symm
              · exact hpk d (by simpa using hd)
              · exact h d (.inr (.inr hd))
          · exact h d hd
  have := this ops (start v) (fun d => v = some d) (by
    intro d hd
    rcases hd with hd | hd | hd
    · cases hd
    · cases hd
    · exact hd) d hd
  exact this

/-- Meets the hypotheses: two compilations and a reload of the page, handled in separate turns. -/
example : let s := run 4 none [.store 1, .announce, .recv, .tryRecv, .render, .request .full, .store 2, .recv, .tryRecv,
    .render, .announce, .recv, .tryRecv, .render]
    s.sent = [1, 1, 2] ∧ s.queue = [] ∧ s.phase = .idle ∧ s.turns.length = 3 := by decide

/-- **C42 fails.** A page that is reloaded while a compilation is announced is sent the previous document and nothing
after it, although everything is handled. -/
theorem stale_after_full : let ops : List (Op Nat) := [.store 1, .announce, .recv, .tryRecv, .render, .store 2, .announce,
      .request .full, .recv, .tryRecv, .tryRecv, .render]
    let s := run 1024 none ops
    s.queue = [] ∧ s.lagged = false ∧ s.phase = .idle ∧ s.posting = 0 ∧ shown s = some 1 ∧ latest none ops = some 2 := by
  decide

/-- Which compilations reach the preview: those that have a document, unless the preview refreshes on save only and the
compilation was caused by neither a save nor a change of the main file. -/
theorem reaches_preview_iff (style : Style) (byEntry onSaved success : Bool) :
    (notify style byEntry onSaved success).1 = true ↔
      success = true ∧ (style = .onSave → byEntry = true ∨ onSaved = true) := by
  cases style <;> cases byEntry <;> cases onSaved <;> cases success <;> decide

/-- Which compilations tell the editor their status: all, unless the preview refreshes on save only and the compilation
was caused by neither a save nor a change of the main file. -/
theorem status_told_iff (style : Style) (byEntry onSaved success : Bool) :
    (notify style byEntry onSaved success).2 = true ↔ (style = .onSave → byEntry = true ∨ onSaved = true) := by
  cases style <;> cases byEntry <;> cases onSaved <;> cases success <;> decide

/-! ## Everything gets handled -/

/-- What is left to do. -/
def work (s : State D) : Nat :=
  3 * s.queue.length + (if s.lagged then 3 else 0) + match s.phase with
    | .idle => 0
    | .drain _ => 2
    | .ready _ => 1

theorem round_work (cap : Nat) (s : State D) :
    (round.foldl (step cap) s).posting = s.posting ∧
      work (round.foldl (step cap) s) ≤ work s - 1 := by
  obtain ⟨view, queue, lagged, phase, current, sent, turns, posting⟩ := s
  cases phase <;> cases lagged <;> rcases queue with _ | ⟨m, _ | ⟨m', q⟩⟩ <;> cases view <;>
    simp [round, step, recv, tryRecv, render, work] <;> omega

theorem work_zero {s : State D} (h : work s = 0) (hp : s.posting = 0) : Quiet s := by
  obtain ⟨view, queue, lagged, phase, current, sent, turns, posting⟩ := s
  cases phase <;> cases lagged <;> simp [work] at h
  · exact ⟨List.length_eq_zero_iff.mp (show queue.length = 0 by omega), rfl, rfl, hp⟩

theorem rounds_work (cap : Nat) (k : Nat) (s : State D) :
    (((List.replicate k round).flatten).foldl (step cap) s).posting = s.posting ∧
      work (((List.replicate k round).flatten).foldl (step cap) s) ≤ work s - k := by
  induction k generalizing s with
  | zero => exact ⟨rfl, by simp⟩
  | succ k ih =>
    rw [List.replicate_succ, List.flatten_cons, List.foldl_append]
    obtain ⟨h1, h2⟩ := round_work cap s
    obtain ⟨h3, h4⟩ := ih (round.foldl (step cap) s)
    exact ⟨h3.trans h1, by omega⟩

theorem announce_all (cap : Nat) (k : Nat) (s : State D) (h : s.posting ≤ k) :
    (((List.replicate k .announce)).foldl (step cap) s).posting = 0 := by
  induction k generalizing s with
  | zero => simpa using h
  | succ k ih =>
    rw [List.replicate_succ, List.foldl_cons]
    apply ih
    simp only [step]
    split
    · omega
    · simp only; omega

/-- **C42.** Whatever happened, once the compilations have announced their documents a number of turns of the renderer
handles everything. -/
theorem settles (cap : Nat) (v : Option D) (ops : List (Op D)) :
    ∃ n, ∀ k ≥ n, Quiet (run cap v (ops ++ List.replicate (run cap v ops).posting .announce ++
      (List.replicate k round).flatten)) := by
  refine ⟨work (run cap v (ops ++ List.replicate (run cap v ops).posting .announce)), fun k hk => ?_⟩
  have e : run cap v (ops ++ List.replicate (run cap v ops).posting .announce ++ (List.replicate k round).flatten) =
      ((List.replicate k round).flatten).foldl (step cap)
        (run cap v (ops ++ List.replicate (run cap v ops).posting .announce)) := by
    simp only [run, List.foldl_append]
  rw [e]
  obtain ⟨h1, h2⟩ := rounds_work cap k (run cap v (ops ++ List.replicate (run cap v ops).posting .announce))
  refine work_zero (by omega) (h1.trans ?_)
  have : run cap v (ops ++ List.replicate (run cap v ops).posting .announce) =
      (List.replicate (run cap v ops).posting .announce).foldl (step cap) (run cap v ops) := by
    simp only [run, List.foldl_append]
  rw [this]
  exact announce_all cap _ _ (Nat.le_refl _)

/-! ## No request is lost -/

theorem post_kept (cap : Nat) (s : State D) (m : Msg) (h : s.queue.length < cap) : kept (post cap s m) = kept s ++ [m] := by
  simp [post, h, kept, taken]

theorem recv_kept (s : State D) (h : s.phase = .idle) : kept (recv s) = kept s := by
  unfold recv
  split
  · simp [kept, taken, h, Phase.got, Got.msg?]
  · split
    · rfl
    · rename_i q; simp [kept, taken, h, Phase.got, Got.msg?, q]

theorem tryRecv_kept (s : State D) (got : List Got) (h : s.phase = .drain got) : kept (tryRecv s got) = kept s := by
  unfold tryRecv
  split
  · simp [kept, taken, h, Phase.got, Got.msg?]
  · split
    · rename_i q; simp [kept, taken, h, Phase.got, q]
    · rename_i q; simp [kept, taken, h, Phase.got, Got.msg?, q]

theorem render_kept (s : State D) (got : List Got) (h : s.phase = .ready got) : kept (render s got) = kept s := by
  unfold render
  split <;> simp [kept, taken, h, Phase.got]

/-- The channel was never full. -/
def Roomy (cap : Nat) (v : Option D) (ops : List (Op D)) : Prop :=
  ∀ pre post, ops = pre ++ post → (run cap v pre).queue.length < cap

theorem posted_append (a b : List (Op D)) (n : Nat) (cap : Nat) (s : State D) (h : s.posting = n) :
    posted n (a ++ b) = posted n a ++ posted (a.foldl (step cap) s).posting b := by
  induction a generalizing n s with
  | nil => simp [posted, h]
  | cons op a ih =>
    have hp := fun m => (post_cases cap s m).2.2.2.2.2.1
    cases op with
    | store d =>
      rw [List.cons_append, posted, posted, List.foldl_cons]
      exact ih (n + 1) _ (by simp [step, h])
    | announce =>
      rw [List.cons_append, posted, posted, List.foldl_cons]
      by_cases hn : n = 0
      · rw [if_pos hn, if_pos hn]
        exact ih 0 _ (by simp [step, h, hn])
      · rw [if_neg hn, if_neg hn, List.cons_append]
        rw [ih (n - 1) (step cap s .announce) (by simp [step, h, hn])]
    | request m =>
      rw [List.cons_append, posted, posted, List.foldl_cons, List.cons_append]
      rw [ih n (step cap s (.request m)) (by simp [step, hp, h])]
    | recv =>
      rw [List.cons_append, posted, posted, List.foldl_cons]
      · refine ih n _ ?_
        simp only [step]; split
        · unfold recv; split
          · exact h
          · split <;> exact h
        · exact h
    | tryRecv =>
      rw [List.cons_append, posted, posted, List.foldl_cons]
      · refine ih n _ ?_
        simp only [step]; split
        · unfold tryRecv; split
          · exact h
          · split <;> exact h
        · exact h
    | render =>
      rw [List.cons_append, posted, posted, List.foldl_cons]
      · refine ih n _ ?_
        simp only [step]; split
        · unfold render; split <;> exact h
        · exact h

/-- **C42.** While the channel is not full, every request is handled once, in the order it was made: it was taken by a
turn, is being taken, or waits. -/
theorem no_request_lost (cap : Nat) (v : Option D) (ops : List (Op D)) (h : Roomy cap v ops) :
    kept (run cap v ops) = posted 0 ops := by
  rw [← List.reverse_reverse ops] at h ⊢
  generalize ops.reverse = l at h
  induction l with
  | nil => rfl
  | cons op l ih =>
    rw [List.reverse_cons] at h ⊢
    have h0 : Roomy cap v l.reverse := fun pre post e => h pre (post ++ [op]) (by rw [e]; simp)
    have hq := h l.reverse [op] rfl
    have ih := ih h0
    have hrun : run cap v (l.reverse ++ [op]) = step cap (run cap v l.reverse) op := by
      simp only [run, List.foldl_append, List.foldl_cons, List.foldl_nil]
    rw [hrun, posted_append l.reverse [op] 0 cap (start v) rfl, ← ih]
    change _ = _ ++ posted (run cap v l.reverse).posting [op]
    generalize run cap v l.reverse = s at hq
    cases op with
    | store d => simp [step, kept, taken, posted]
    | announce =>
      simp only [step, posted]
      split
      · simp [posted]
      · have := post_kept cap s .inc hq
        simpa [kept, taken] using this
    | request m => simpa [step, posted] using post_kept cap s m hq
    | recv =>
      simp only [step, posted, List.append_nil]; split
      · rename_i h; exact recv_kept s h
      · rfl
    | tryRecv =>
      simp only [step, posted, List.append_nil]; split
      · rename_i h; exact tryRecv_kept s _ h
      · rfl
    | render =>
      simp only [step, posted, List.append_nil]; split
      · rename_i h; exact render_kept s _ h
      · rfl

theorem step_taken (cap : Nat) (s : State D) (op : Op D) : taken s <+: taken (step cap s op) := by
  have hp := fun m => post_cases cap s m
  cases op with
  | store d => exact List.prefix_refl _
  | announce =>
    simp only [step]; split
    · exact List.prefix_refl _
    · simp only [taken, (hp .inc).2.2.2.1, (hp .inc).2.2.2.2.1]; exact List.prefix_refl _
  | request m =>
    simp only [step, taken, (hp m).2.2.2.1, (hp m).2.2.2.2.1]; exact List.prefix_refl _
  | recv =>
    simp only [step]; split
    · rename_i h
      unfold recv; split
      · simp [taken, h, Phase.got]
      · split <;> simp [taken, h, Phase.got]
    · exact List.prefix_refl _
  | tryRecv =>
    simp only [step]; split
    · rename_i h
      unfold tryRecv; split
      · simp [taken, h, Phase.got, Got.msg?]
      · split <;> simp [taken, h, Phase.got, Got.msg?]
    · exact List.prefix_refl _
  | render =>
    simp only [step]; split
    · rename_i h
      unfold render; split <;> simp [taken, h, Phase.got]
    · exact List.prefix_refl _

/-- **C42.** A request taken from the channel is handled by the turn, also if others were lost. -/
theorem taken_stays (cap : Nat) (v : Option D) (ops more : List (Op D)) :
    taken (run cap v ops) <+: taken (run cap v (ops ++ more)) := by
  have : ∀ (more : List (Op D)) (s : State D), taken s <+: taken (more.foldl (step cap) s) := by
    intro more
    induction more with
    | nil => intro s; exact List.prefix_refl _
    | cons op more ih => intro s; exact (step_taken cap s op).trans (ih _)
  have h := this more (run cap v ops)
  rwa [show more.foldl (step cap) (run cap v ops) = run cap v (ops ++ more) by simp only [run, List.foldl_append]] at h

/-- Only a page that shows a document can have a mixed turn. -/
theorem mixed_only_when_shown (cap : Nat) (v : Option D) (ops : List (Op D)) (h : shown (run cap v ops) = none) :
    ∀ t ∈ (run cap v ops).turns, ¬ t.Mixed := by
  have key : ∀ (ops : List (Op D)) (s : State D), (s.sent = [] → s.current = none ∧ ∀ t ∈ s.turns, t.had = false) →
      ((ops.foldl (step cap) s).sent = [] → (ops.foldl (step cap) s).current = none ∧
        ∀ t ∈ (ops.foldl (step cap) s).turns, t.had = false) := by
    intro ops
    induction ops with
    | nil => intro s h; exact h
    | cons op ops ih =>
      intro s h
      rw [List.foldl_cons]
      apply ih
      have hp := fun m => post_cases cap s m
      cases op with
      | store d => exact h
      | announce =>
        simp only [step]; split
        · exact h
        · simp only [(hp .inc).2.1, (hp .inc).2.2.1, (hp .inc).2.2.2.1]; exact h
      | request m => simp only [step, (hp m).2.1, (hp m).2.2.1, (hp m).2.2.2.1]; exact h
      | recv =>
        simp only [step]; split
        · unfold recv; split
          · exact h
          · split <;> exact h
        · exact h
      | tryRecv =>
        simp only [step]; split
        · unfold tryRecv; split
          · exact h
          · split <;> exact h
        · exact h
      | render =>
        simp only [step]; split
        · unfold render; split
          · simp only
            intro hs
            obtain ⟨h1, h2⟩ := h hs
            refine ⟨h1, fun t ht => ?_⟩
            rcases List.mem_append.mp ht with ht | ht
            · exact h2 t ht
            · rw [List.mem_singleton.mp ht, h1]; rfl
          · simp
        · exact h
  have hs : (run cap v ops).sent = [] := by simpa [shown] using h
  intro t ht hm
  have := (key ops (start v) (fun _ => ⟨rfl, fun t ht => (by cases ht)⟩) hs).2 t ht
  have h1 := hm.1
  rw [this] at h1; cases h1

example : Roomy 1024 none [.store (0 : Nat), .announce, .request .full, .recv, .tryRecv] := by
  intro pre post h
  have : pre.length ≤ 5 := by have := congrArg List.length h; simp at this; omega
  have hp : pre <+: [.store (0 : Nat), .announce, .request .full, .recv, .tryRecv] := ⟨post, h.symm⟩
  rw [List.prefix_iff_eq_take.mp hp]
  generalize pre.length = n at this
  have : ∀ n ≤ 5, (run 1024 none (List.take n [.store (0 : Nat), .announce, .request .full, .recv, .tryRecv])).queue.length < 1024 := by
    decide
  exact this n ‹_›

end Tinymist.PreviewRender
