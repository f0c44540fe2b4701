import Verif.Spec.PreviewEditor

/-!
# C41: the preview control connection survives user interaction
-/

namespace Tinymist.PreviewEditor

variable {D S : Type} [DecidableEq S]

theorem spansAfter_snoc (es : List (Event D S)) (e : Event D S) :
    spansAfter (es ++ [e]) = match e with
      | .interner op => Interner.step (spansAfter es) op
      | _ => spansAfter es := by
  unfold spansAfter Interner.run
  rw [List.filterMap_append, List.foldl_append]
  cases e <;> rfl

theorem run_snoc (b : Bool) (es : List (Event D S)) (e : Event D S) : run b (es ++ [e]) = step (run b es) e := by
  unfold run; rw [List.foldl_append]; rfl

theorem scroll_spans (s : State D S) (span : List Char) : (scrollBySpan s span).spans = s.spans := by
  unfold scrollBySpan; split <;> rfl

theorem scroll_open (s : State D S) (span : List Char) : (scrollBySpan s span).open_ = s.open_ := by
  unfold scrollBySpan; split <;> rfl

theorem respond_spans (s : State D S) (o : Output D S) : (respond s o).spans = s.spans := by
  unfold respond leave; split <;> rfl

theorem respond_open (s : State D S) (o : Output D S) : (respond s o).open_ = s.open_ := by
  unfold respond leave; split <;> rfl

theorem step_spans (s : State D S) (e : Event D S) :
    (step s e).spans = match e with
      | .interner op => Interner.step s.spans op
      | _ => s.spans := by
  cases e with
  | interner op => rfl
  | gone => rfl
  | mailbox r =>
    simp only [step]
    split
    · cases r with
      | jumpResolve span =>
        simp only [onRequest]
        split
        · exact scroll_spans s span
        · simp only [leave]; exact scroll_spans s span
      | shutdown => rfl
      | jump d => exact respond_spans _ _
      | outline d => exact respond_spans _ _
      | status d => exact respond_spans _ _
    · rfl
  | control m =>
    simp only [step]
    split
    · cases m with
      | jumpResolve span => exact scroll_spans s span
      | _ => rfl
    · rfl
  | noInput =>
    simp only [step]
    split <;> rfl

theorem step_open (s : State D S) (e : Event D S) :
    (step s e).open_ = match e with
      | .gone => false
      | _ => s.open_ := by
  cases e with
  | interner op => rfl
  | gone => rfl
  | mailbox r =>
    simp only [step]
    split
    · cases r with
      | jumpResolve span =>
        simp only [onRequest]
        split
        · exact scroll_open s span
        · simp only [leave]; exact scroll_open s span
      | shutdown => rfl
      | jump d => exact respond_open _ _
      | outline d => exact respond_open _ _
      | status d => exact respond_open _ _
    · rfl
  | control m =>
    simp only [step]
    split
    · cases m with
      | jumpResolve span => exact scroll_open s span
      | _ => rfl
    · rfl
  | noInput =>
    simp only [step]
    split <;> rfl

theorem snoc_ind {α : Type} {P : List α → Prop} (h0 : P []) (h1 : ∀ e es, P es → P (es ++ [e])) (l : List α) : P l := by
  have : ∀ l : List α, P l.reverse := by
    intro l
    induction l with
    | nil => exact h0
    | cons a l ih => rw [List.reverse_cons]; exact h1 a _ ih
  have := this l.reverse
  rwa [List.reverse_reverse] at this

theorem run_spans (b : Bool) (es : List (Event D S)) : (run b es).spans = spansAfter es := by
  induction es using snoc_ind with
  | h0 => rfl
  | h1 e es ih =>
    rw [run_snoc, step_spans, spansAfter_snoc, ih]

theorem run_open (b : Bool) (es : List (Event D S)) : (run b es).open_ = true ↔ ¬ Gone es := by
  induction es using snoc_ind with
  | h0 => unfold Gone; simp [run, start]
  | h1 e es ih =>
    rw [run_snoc, step_open]
    unfold Gone at *
    rw [List.mem_append, List.mem_singleton]
    cases e with
    | gone => simp
    | _ => simp [ih]

theorem respond_running (s : State D S) (o : Output D S) (h : s.status = .running) :
    (respond s o).status = .running ↔ s.open_ = true := by
  unfold respond leave
  split
  · rename_i ho; simp [h, ho]
  · rename_i ho
    constructor
    · intro h'; simp only at h'; split at h' <;> cases h'
    · intro h'; exact absurd h' ho

theorem leave_stops (s : State D S) : (leave s).status ≠ .running := by
  unfold leave; simp only; split <;> simp

/-- **C41, exactly when it ends.** The connection, while running, goes on after a message iff the message is none of
those of `Ends`. -/
theorem goes_on_iff (b : Bool) (es : List (Event D S)) (e : Event D S) (h : (run b es).status = .running) :
    (run b (es ++ [e])).status = .running ↔ ¬ Ends es e := by
  rw [run_snoc]
  have hopen := run_open b es
  have hspans := run_spans b es
  generalize run b es = s at h hopen hspans
  cases e with
  | interner op => exact ⟨fun _ h' => (nomatch h'), fun _ => h⟩
  | gone => exact ⟨fun _ h' => (nomatch h'), fun _ => h⟩
  | noInput =>
    simp only [step, h, if_true]
    exact ⟨fun h' => (nomatch h'), fun h' => absurd .noInput h'⟩
  | mailbox r =>
    simp only [step, h, if_true]
    cases r with
    | shutdown => exact ⟨fun h' => absurd h' (leave_stops s), fun h' => absurd .shutdown h'⟩
    | jumpResolve span =>
      constructor
      · intro h'
        simp only [onRequest] at h'
        split at h'
        · rename_i hp; rw [hp] at h'; cases h'
        · exact absurd h' (leave_stops _)
      · intro h'; exact absurd (.webviewJump span) h'
    | jump d =>
      show (respond s _).status = .running ↔ _
      rw [respond_running s _ h, hopen]
      constructor
      · intro hg he
        cases he with
        | gone _ hg' _ => exact hg hg'
      · intro he hg
        exact he (.gone _ hg (.inl ⟨d, rfl⟩))
    | outline d =>
      show (respond s _).status = .running ↔ _
      rw [respond_running s _ h, hopen]
      constructor
      · intro hg he
        cases he with
        | gone _ hg' _ => exact hg hg'
      · intro he hg
        exact he (.gone _ hg (.inr (.inl ⟨d, rfl⟩)))
    | status d =>
      show (respond s _).status = .running ↔ _
      rw [respond_running s _ h, hopen]
      constructor
      · intro hg he
        cases he with
        | gone _ hg' _ => exact hg hg'
      · intro he hg
        exact he (.gone _ hg (.inr (.inr ⟨d, rfl⟩)))
  | control m =>
    simp only [step, h, if_true]
    cases m with
    | jumpResolve span =>
      show (scrollBySpan s span).status = .running ↔ _
      unfold scrollBySpan
      have key : Interner.spanByStr s.spans span = none ↔ Interner.InternId.fromHex span = none := by
        simp [Interner.spanByStr]
      split
      · rename_i hn
        exact ⟨fun h' => (nomatch h'), fun h' => absurd (.malformed span (key.mp hn)) h'⟩
      · rename_i hn
        refine ⟨fun _ he => ?_, fun _ => h⟩
        cases he with
        | malformed _ hm => rw [← key, hn] at hm; cases hm
      · rename_i hn
        refine ⟨fun _ he => ?_, fun _ => h⟩
        cases he with
        | malformed _ hm => rw [← key, hn] at hm; cases hm
      · rename_i x hn
        refine ⟨fun _ he => ?_, fun _ => h⟩
        cases he with
        | malformed _ hm => rw [← key, hn] at hm; cases hm
    | cursor d => exact ⟨fun _ h' => (nomatch h'), fun _ => h⟩
    | sourceLoc d => exact ⟨fun _ h' => (nomatch h'), fun _ => h⟩
    | panelScroll d => exact ⟨fun _ h' => (nomatch h'), fun _ => h⟩
    | syncFiles d => exact ⟨fun _ h' => (nomatch h'), fun _ => h⟩
    | updateFiles d => exact ⟨fun _ h' => (nomatch h'), fun _ => h⟩
    | removeFiles d => exact ⟨fun _ h' => (nomatch h'), fun _ => h⟩

theorem scroll_out (s : State D S) (es : List (Event D S)) (span : List Char) (hs : s.spans = spansAfter es) :
    (scrollBySpan s span).out = s.out ++ (known es span).toList.map .renderSpan := by
  unfold scrollBySpan known
  rw [← hs]
  split <;> rename_i heq <;> rw [heq] <;> simp

/-- Each message is served as it asks. -/
theorem served (b : Bool) (es : List (Event D S)) (e : Event D S) (h : (run b es).status = .running)
    (he : ¬ Ends es e) : (run b (es ++ [e])).out = (run b es).out ++ asked es e := by
  have hgo := (goes_on_iff b es e h).mpr he
  rw [run_snoc] at hgo ⊢
  have hspans := run_spans b es
  have hopen := run_open b es
  generalize run b es = s at h hspans hgo hopen
  have resp : ∀ o, (respond s o).status = .running → (respond s o).out = s.out ++ [o] := by
    intro o ho
    rw [respond_running s o h] at ho
    unfold respond
    rw [if_pos ho]
  cases e with
  | interner op => simp [step, asked]
  | gone => simp [step, asked]
  | noInput => exact absurd .noInput he
  | mailbox r =>
    simp only [step, h, if_true] at hgo ⊢
    cases r with
    | shutdown => exact absurd .shutdown he
    | jumpResolve span => exact absurd (.webviewJump span) he
    | jump d => exact resp _ hgo
    | outline d => exact resp _ hgo
    | status d => exact resp _ hgo
  | control m =>
    simp only [step, h, if_true]
    cases m with
    | jumpResolve span => exact scroll_out s es span hspans
    | _ => rfl

theorem survives_from (b : Bool) (before es : List (Event D S)) (h : (run b before).status = .running)
    (hno : ∀ pre e post, es = pre ++ e :: post → ¬ Ends (before ++ pre) e) :
    (run b (before ++ es)).status = .running ∧
      (run b (before ++ es)).out = (run b before).out ++ allAsked before es := by
  induction es generalizing before with
  | nil => simp [h, allAsked]
  | cons e es ih =>
    have he : ¬ Ends before e := by simpa using hno [] e es rfl
    have h1 := (goes_on_iff b before e h).mpr he
    have h2 := served b before e h he
    have := ih (before ++ [e]) h1 (by
      intro pre e' post hes
      have := hno (e :: pre) e' post (by rw [hes]; rfl)
      simpa using this)
    rw [List.append_assoc, List.singleton_append] at this
    refine ⟨this.1, ?_⟩
    rw [this.2, h2, allAsked, List.append_assoc]

/-- **C41, partial.** As long as none of the messages of `Ends` comes, the connection goes on and serves every message
in order. Missing from the full claim: `Ends` contains every jump asked for by a webview and every malformed span id. -/
theorem survives_partial (b : Bool) (es : List (Event D S))
    (hno : ∀ pre e post, es = pre ++ e :: post → ¬ Ends pre e) :
    (run b es).status = .running ∧
      (run b es).out = (if b then [Output.syncEditor] else []) ++ allAsked [] es := by
  have := survives_from b [] es (by rfl) (by simpa using hno)
  simpa [run, start] using this

/-- Meets the hypotheses: an outline, a jump by span id, an editor that scrolls, and a state. -/
example : (run (S := Nat) false [.interner .reset, .interner (.intern 7), .mailbox (.outline 1),
    .control (.jumpResolve "200000000".toList), .mailbox (.jump 2), .control (.cursor 3), .mailbox (.status 4)]).out =
    [.editorOutline 1, .renderSpan 7, .editorScroll 2, .renderCursor 3, .editorStatus 4] := by decide

/-- **C41 fails.** A click in the preview that asks for a source location is served, and ends the connection: the outline
of the next compilation is not sent, requests of the editor are ignored. -/
theorem webview_jump_ends_connection (es : List (Event D S)) (span : List Char) (later : List (Event D S))
    (h : (run false es).status = .running) :
    (run false (es ++ .mailbox (.jumpResolve span) :: later)).status ≠ .running ∧
    (run false (es ++ .mailbox (.jumpResolve span) :: later)).out =
      (run false (es ++ [.mailbox (.jumpResolve span)])).out := by
  have stopped : ∀ (later before : List (Event D S)), (run false before).status ≠ .running →
      (run false (before ++ later)).status ≠ .running ∧ (run false (before ++ later)).out = (run false before).out := by
    intro later
    induction later with
    | nil => intro before h; simp [h]
    | cons e later ih =>
      intro before hb
      have h1 : (run false (before ++ [e])).status = (run false before).status ∧
          (run false (before ++ [e])).out = (run false before).out := by
        rw [run_snoc]
        cases e <;> simp [step, hb]
      have := ih (before ++ [e]) (by rw [h1.1]; exact hb)
      rw [List.append_assoc, List.singleton_append, h1.2] at this
      exact this
  have h1 : (run false (es ++ [.mailbox (.jumpResolve span)])).status ≠ .running := by
    intro h'
    exact (goes_on_iff false es _ h).mp h' (.webviewJump span)
  have := stopped later (es ++ [.mailbox (.jumpResolve span)]) h1
  simpa using this

/-- **C41 fails.** A span id that is not a hexadecimal number brings the task down with a panic. -/
theorem malformed_span_panics (es : List (Event D S)) (b : Bool) (h : (run b es).status = .running) (span : List Char)
    (hs : Interner.InternId.fromHex span = none) :
    (run b (es ++ [.control (.jumpResolve span)])).status = .panicked := by
  rw [run_snoc]
  simp only [step, h, if_true, onMessage, scrollBySpan]
  have : Interner.spanByStr (run b es).spans span = none := by simp [Interner.spanByStr, hs]
  rw [this]

/-- In standalone mode the jump ends the whole program. -/
theorem standalone_jump_exits : (run (D := Nat) (S := Nat) true [.mailbox (.jumpResolve "100000000".toList)]).status =
    .processExit := by decide

end Tinymist.PreviewEditor
