import Verif.Spec.Focus

/-!
# Focus and pin rules for the main file (C34)
-/

namespace Tinymist.Focus

variable {P : Type} (valid : P → Bool)

theorem run_append (s : State P) (a b : List (Op P)) :
    run valid s (a ++ b) = run valid (run valid s a) b := by simp [run, List.foldl_append]

theorem changeMain_fields (s : State P) (p : Option P) :
    (changeMain valid s p).1.focusing = s.focusing ∧ (changeMain valid s p).1.pinUser = s.pinUser ∧
    (changeMain valid s p).1.pinPreview = s.pinPreview ∧
    (changeMain valid s p).1.pinBrowsing = s.pinBrowsing ∧
    (changeMain valid s p).1.manual = s.manual ∧ (changeMain valid s p).1.activities = s.activities ∧
    (changeMain valid s p).1.default = s.default := by
  unfold changeMain; split <;> simp

theorem focusMain_fields (s : State P) (p : Option P) :
    (focusMain valid s p).1.focusing = p ∧ (focusMain valid s p).1.pinUser = s.pinUser ∧
    (focusMain valid s p).1.manual = s.manual ∧ (focusMain valid s p).1.activities = s.activities := by
  unfold focusMain
  simp only
  split
  · simp
  · have := changeMain_fields valid { s with focusing := p } p
    simp_all

theorem focusMain_pinned (s : State P) (p : Option P) (h : s.pinUser = true) :
    (focusMain valid s p).1.main = s.main := by
  simp [focusMain, h]

theorem step_follow (before : List (Op P)) (s : State P) (op : Op P) (hm : s.manual = before.any isFocus)
    (ha : s.manual = false → s.activities = before.any isQuery) :
    (step valid s op).1.manual = (before ++ [op]).any isFocus ∧
      ((step valid s op).1.manual = false →
        (step valid s op).1.activities = (before ++ [op]).any isQuery) ∧
      (step valid s op).1.focusing = (attention before op).getD s.focusing := by
  have e1 : (before ++ [op]).any isFocus = (before.any isFocus || isFocus op) := by
    simp [List.any_append]
  have e2 : (before ++ [op]).any isQuery = (before.any isQuery || isQuery op) := by
    simp [List.any_append]
  rw [e1, e2]
  clear e1 e2
  cases op with
  | pin p =>
    obtain ⟨h1, _, _, _, h2, h3, _⟩ :=
      changeMain_fields valid { s with pinUser := p.isSome } ((p.or s.default).or s.focusing)
    refine ⟨h2.trans (by simpa [isFocus] using hm), fun h => h3.trans ?_, h1⟩
    simpa [isQuery] using ha (h2.symm.trans h)
  | focus p =>
    obtain ⟨h1, _, h2, h3⟩ := focusMain_fields valid { s with manual := true } p
    exact ⟨h2.trans (by simp [isFocus]), fun h => (nomatch (h2.symm.trans h : true = false)), h1⟩
  | opened p =>
    obtain ⟨h1, _, h2, h3⟩ := focusMain_fields valid s (some p)
    simp only [step, implicitFocus, attention, isFocus, isQuery, Bool.or_false]
    rw [← hm]
    by_cases h : s.manual = true
    · simp [h]
    · have h : s.manual = false := by simpa using h
      have ha := ha h
      rw [← ha]
      by_cases h' : s.activities = true
      · simp [h, h']
      · simp [h, h', h1, h2, h3]
  | queried p =>
    obtain ⟨h1, _, h2, h3⟩ := focusMain_fields valid { s with activities := true } (some p)
    simp only [step, implicitFocus, attention, isFocus, isQuery, Bool.or_false]
    rw [← hm]
    by_cases h : s.manual = true
    · simp [h]
    · rw [if_neg h]
      refine ⟨h2, fun _ => h3.trans (by simp), h1.trans (by simp [h])⟩
  | previewStart p b =>
    cases p with
    | none => exact ⟨by simpa [step, isFocus] using hm, by simpa [step, isQuery] using ha, rfl⟩
    | some p =>
      obtain ⟨h1, _, _, _, h2, h3, _⟩ := changeMain_fields valid s (some p)
      simp only [step]
      split
      · exact ⟨h2.trans (by simpa [isFocus] using hm),
          fun h => h3.trans (by simpa [isQuery] using ha (h2.symm.trans h)), h1⟩
      · exact ⟨h2.trans (by simpa [isFocus] using hm),
          fun h => h3.trans (by simpa [isQuery] using ha (h2.symm.trans h)), h1⟩
  | previewStop => exact ⟨by simpa [step, isFocus] using hm, by simpa [step, isQuery] using ha, rfl⟩
  | configure d r => exact ⟨by simpa [step, isFocus] using hm, by simpa [step, isQuery] using ha, rfl⟩

/-- The server remembers the followed file, whether it moves the main file or not. -/
theorem focusing_followed (ops : List (Op P)) (d : Option P) :
    (run valid (init d) ops).focusing = followed ops := by
  suffices ∀ (before : List (Op P)) (s : State P), s.manual = before.any isFocus →
      (s.manual = false → s.activities = before.any isQuery) →
      (run valid s ops).focusing = followedFrom before s.focusing ops from
    this [] (init d) rfl (fun _ => rfl)
  induction ops with
  | nil => intro before s _ _; rfl
  | cons op ops ih =>
    intro before s hm ha
    show (run valid (step valid s op).1 ops).focusing = _
    rw [followedFrom]
    have key := step_follow valid before s op hm ha
    rw [ih (before ++ [op]) _ key.1 key.2.1, key.2.2]

/-- **C34, pinned.** After the user pinned a file, the main file is that file however the attention moves
afterwards, until the user pins or unpins, a preview of another file is started on the primary project,
or the configuration changes. -/
theorem pinned_stays (ops after : List (Op P)) (d : Option P) (p : P) (hp : valid p = true)
    (hafter : ∀ o ∈ after, Passive o = true) :
    (run valid (init d) (ops ++ .pin (some p) :: after)).main = some p := by
  rw [run_append]
  show (run valid (step valid (run valid (init d) ops) (.pin (some p))).1 after).main = some p
  generalize run valid (init d) ops = s
  have h0 : (step valid s (.pin (some p))).1.main = some p ∧
      (step valid s (.pin (some p))).1.pinUser = true := by
    simp [step, pinMain, changeMain, hp]
  generalize (step valid s (.pin (some p))).1 = s at h0
  induction after generalizing s with
  | nil => exact h0.1
  | cons o after ih =>
    refine ih (fun o ho => hafter o (List.mem_cons_of_mem _ ho)) _ ?_
    have ho := hafter o List.mem_cons_self
    cases o with
    | focus q =>
      have := focusMain_fields valid { s with manual := true } q
      have h2 := focusMain_pinned valid { s with manual := true } q h0.2
      simp_all [step]
    | opened q =>
      simp only [step, implicitFocus]
      have := focusMain_fields valid s (some q)
      have h2 := focusMain_pinned valid s (some q) h0.2
      split
      · exact h0
      · simp only [Bool.false_eq_true, if_false]
        split
        · exact h0
        · simp_all
    | queried q =>
      simp only [step, implicitFocus]
      have := focusMain_fields valid { s with activities := true } (some q)
      have h2 := focusMain_pinned valid { s with activities := true } (some q) h0.2
      split
      · exact h0
      · simp_all
    | previewStop => exact h0
    | pin _ => simp [Passive] at ho
    | previewStart _ _ => simp [Passive] at ho
    | configure _ _ => simp [Passive] at ho

theorem configured_snoc (d : Option P) (ops : List (Op P)) (o : Op P) :
    configured d (ops ++ [o]) = (match o with | .configure d' _ => d' | _ => configured d ops) := by
  rw [configured, List.foldl_append]; rfl

theorem userPinned_snoc (ops : List (Op P)) (o : Op P) :
    userPinned (ops ++ [o]) = (match o with | .pin p => p.isSome | _ => userPinned ops) := by
  rw [userPinned, List.foldl_append]; rfl

theorem previewPinned_snoc (ops : List (Op P)) (o : Op P) :
    previewPinned valid (ops ++ [o]) = (match o with
      | .previewStart p browsing => if p.all valid then !browsing else previewPinned valid ops
      | .previewStop => false
      | _ => previewPinned valid ops) := by
  rw [previewPinned, List.foldl_append]; rfl

theorem focusMain_more (s : State P) (p : Option P) :
    (focusMain valid s p).1.default = s.default ∧ (focusMain valid s p).1.pinPreview = s.pinPreview ∧
      (focusMain valid s p).1.pinBrowsing = s.pinBrowsing := by
  unfold focusMain
  simp only
  split
  · simp
  · have := changeMain_fields valid { s with focusing := p } p
    simp_all

theorem any_not_all (p : Option P) : p.any (fun p => !valid p) = !p.all valid := by cases p <;> rfl

/-- One request: what holds the main file. -/
theorem step_holds (s : State P) (o : Op P) :
    (step valid s o).1.default = (match o with | .configure d' _ => d' | _ => s.default) ∧
    (step valid s o).1.pinUser = (match o with | .pin p => p.isSome | _ => s.pinUser) ∧
    ((step valid s o).1.pinPreview && !(step valid s o).1.pinBrowsing) = (match o with
      | .previewStart p browsing => if p.all valid then !browsing else (s.pinPreview && !s.pinBrowsing)
      | .previewStop => false
      | _ => (s.pinPreview && !s.pinBrowsing)) := by
  cases o with
  | pin p =>
    have := changeMain_fields valid { s with pinUser := p.isSome } ((p.or s.default).or s.focusing)
    simp_all [step, pinMain]
  | focus p =>
    have h1 := focusMain_fields valid { s with manual := true } p
    have h2 := focusMain_more valid { s with manual := true } p
    simp_all [step]
  | opened p =>
    have h1 := focusMain_fields valid s (some p)
    have h2 := focusMain_more valid s (some p)
    simp only [step, implicitFocus]
    split
    · simp
    · simp only [Bool.false_eq_true, if_false]
      split <;> simp_all
  | queried p =>
    have h1 := focusMain_fields valid { s with activities := true } (some p)
    have h2 := focusMain_more valid { s with activities := true } (some p)
    simp only [step, implicitFocus]
    split <;> simp_all
  | previewStart p b =>
    cases p with
    | none => simp [step]
    | some p =>
      have := changeMain_fields valid s (some p)
      by_cases hv : valid p = true <;> simp_all [step, changeMain]
  | previewStop => simp [step]
  | configure d r => simp [step]

/-- What holds the main file is what the history says. -/
theorem history_holds (ops : List (Op P)) (d : Option P) :
    (run valid (init d) ops).default = configured d ops ∧ (run valid (init d) ops).pinUser = userPinned ops ∧
      ((run valid (init d) ops).pinPreview && !(run valid (init d) ops).pinBrowsing) = previewPinned valid ops := by
  rw [← List.reverse_reverse ops]
  generalize ops.reverse = l
  induction l with
  | nil => exact ⟨rfl, rfl, rfl⟩
  | cons o l ih =>
    rw [List.reverse_cons, run_append, configured_snoc, userPinned_snoc, previewPinned_snoc]
    have h := step_holds valid (run valid (init d) l.reverse) o
    rw [ih.1, ih.2.1, ih.2.2] at h
    exact h

theorem history_held (ops : List (Op P)) (d : Option P) :
    ((run valid (init d) ops).pinUser || ((run valid (init d) ops).pinPreview && !(run valid (init d) ops).pinBrowsing) ||
      (run valid (init d) ops).default.isSome) = held valid d ops := by
  obtain ⟨h1, h2, h3⟩ := history_holds valid ops d
  rw [h1, h2, h3, held]

/-- **C34, answers.** A request is answered with an error exactly if it would make an invalid file the main file. -/
theorem answer_iff (ops : List (Op P)) (d : Option P) (o : Op P) :
    (step valid (run valid (init d) ops) o).2 = accepted valid d ops o := by
  have hh := history_held valid ops d
  obtain ⟨h1, h2, h3⟩ := history_holds valid ops d
  have hf := focusing_followed valid ops d
  generalize run valid (init d) ops = s at *
  cases o with
  | pin p =>
    simp only [step, pinMain, changeMain, accepted, any_not_all, ← h1, ← hf]
    split <;> simp_all
  | focus p =>
    simp only [step, focusMain, changeMain, accepted, any_not_all, ← hh]
    split
    · simp_all
    · split <;> simp_all
  | opened p => rfl
  | queried p => rfl
  | previewStart p b =>
    cases p with
    | none => rfl
    | some p => by_cases hv : valid p = true <;> simp [step, changeMain, accepted, hv]
  | previewStop => rfl
  | configure d r => rfl

/-- **C34, unpinned.** Unpinning makes the configured entry the main file, and without one the followed
file. -/
theorem unpin_restores_partial (ops : List (Op P)) (d : Option P)
    (hv : ∀ p, (configured d ops).or (followed ops) = some p → valid p = true) :
    (run valid (init d) (ops ++ [.pin none])).main = (configured d ops).or (followed ops) := by
  rw [run_append, ← focusing_followed valid ops d, ← (history_holds valid ops d).1]
  rw [← focusing_followed valid ops d, ← (history_holds valid ops d).1] at hv
  generalize run valid (init d) ops = s at hv
  show (step valid s (.pin none)).1.main = _
  show (changeMain valid { s with pinUser := false } (s.default.or s.focusing)).1.main = _
  unfold changeMain
  split
  · rename_i h
    cases e : s.default.or s.focusing with
    | none => rw [e] at h; simp at h
    | some p => rw [e] at h; simp [hv p e] at h
  · rfl

theorem focusMain_main (s : State P) (p : Option P) :
    (focusMain valid s p).1.main =
      if s.pinUser || (s.pinPreview && !s.pinBrowsing) || s.default.isSome then s.main
      else if p.all valid then p else s.main := by
  simp only [focusMain, changeMain, any_not_all]
  split
  · rfl
  · cases h : p.all valid <;> simp

/-- **C34, following.** A request that moves the attention makes that file the main file if it is valid, unless a file
is pinned, a preview that shows one file runs, or an entry is configured. A request that moves no attention, and does not
pin, preview or configure, leaves the main file. -/
theorem main_follows (ops : List (Op P)) (d : Option P) (o : Op P) (ho : Passive o = true) :
    (run valid (init d) (ops ++ [o])).main =
      match attention ops o with
      | some p => if held valid d ops then (run valid (init d) ops).main
        else if p.all valid then p else (run valid (init d) ops).main
      | none => (run valid (init d) ops).main := by
  rw [run_append]
  have hh := history_held valid ops d
  have key : ∀ (l before : List (Op P)) (s : State P), s.manual = before.any isFocus →
      (s.manual = false → s.activities = before.any isQuery) →
      (run valid s l).manual = (before ++ l).any isFocus ∧
        ((run valid s l).manual = false → (run valid s l).activities = (before ++ l).any isQuery) := by
    intro l
    induction l with
    | nil => intro before s h1 h2; simpa [run] using ⟨h1, h2⟩
    | cons o l ih =>
      intro before s h1 h2
      have h := step_follow valid before s o h1 h2
      have := ih (before ++ [o]) _ h.1 h.2.1
      rw [List.append_assoc] at this
      exact this
  obtain ⟨k1, k2⟩ := key ops [] (init d) rfl (fun _ => rfl)
  rw [List.nil_append] at k1 k2
  generalize run valid (init d) ops = s at hh k1 k2
  show (step valid s o).1.main = _
  cases o with
  | focus p =>
    simp only [step, attention, focusMain_main, ← hh]
  | opened p =>
    simp only [step, attention, implicitFocus, ← k1]
    by_cases hm : s.manual = true
    · simp [hm]
    · rw [if_neg hm, if_neg (by simp), ← k2 (by simpa using hm)]
      by_cases ha : s.activities = true
      · simp [ha]
      · rw [if_neg ha, if_neg (by simp [hm, ha]), focusMain_main, ← hh]
  | queried p =>
    simp only [step, attention, implicitFocus, ← k1]
    by_cases hm : s.manual = true
    · simp [hm]
    · rw [if_neg hm, if_neg hm, if_pos True.intro, focusMain_main, ← hh]
  | previewStop => rfl
  | pin p => cases ho
  | previewStart p b => cases ho
  | configure d r => cases ho

/-- **C34, previews.** A preview of a valid file on the primary project makes it the main file. -/
theorem preview_shows (ops : List (Op P)) (d : Option P) (p : P) (b : Bool) (hv : valid p = true) :
    (run valid (init d) (ops ++ [.previewStart (some p) b])).main = some p := by
  rw [run_append]
  show (step valid (run valid (init d) ops) (.previewStart (some p) b)).1.main = _
  simp [step, changeMain, hv]

/-- **C34, configured.** At first, and after a change of the configuration that concerns the primary project, the main
file is the configured entry. -/
theorem configured_main (ops : List (Op P)) (d d' : Option P) :
    (run valid (init d) []).main = d ∧ (run valid (init d) (ops ++ [.configure d' true])).main = d' := by
  rw [run_append]
  exact ⟨rfl, rfl⟩

/-- Witness: nothing holds, a preview that browses is running. -/
example : held (fun _ => true) none [Op.pin (some 1), .pin none, .previewStart (some 2) true, .opened 3] = false ∧
    held (fun _ => true) none [Op.pin (some 1), .pin none, .previewStart (some 2) false, .opened 3] = true := by decide

/-- **C34, explicit wins.** After an explicit focus request, opening files and querying them changes nothing
any more. -/
theorem explicit_wins (ops after : List (Op P)) (d : Option P)
    (h : ∃ p, Op.focus p ∈ ops)
    (hafter : ∀ o ∈ after, ∃ p, o = .opened p ∨ o = .queried p) :
    run valid (init d) (ops ++ after) = run valid (init d) ops := by
  rw [run_append]
  have hm : (run valid (init d) ops).manual = true := by
    obtain ⟨p, hp⟩ := h
    have : ∀ (l : List (Op P)) (s : State P), s.manual = true ∨ Op.focus p ∈ l →
        (run valid s l).manual = true := by
      intro l
      induction l with
      | nil => intro s h; simpa [run] using h
      | cons o l ih =>
        intro s h
        refine ih _ ?_
        rcases h with h | h
        · left
          cases o with
          | pin q =>
            have := changeMain_fields valid { s with pinUser := q.isSome } ((q.or s.default).or s.focusing)
            simp_all [step, pinMain]
          | focus q =>
            have := focusMain_fields valid { s with manual := true } q
            simp_all [step]
          | opened q => simp [step, implicitFocus, h]
          | queried q => simp [step, implicitFocus, h]
          | previewStart q b =>
            cases q with
            | none => simpa [step] using h
            | some q =>
              have := changeMain_fields valid s (some q)
              simp only [step]
              split <;> simp_all
          | previewStop => exact h
          | configure q b => exact h
        · rcases List.mem_cons.mp h with h | h
          · left; subst h
            have := focusMain_fields valid { s with manual := true } p
            simp_all [step]
          · exact .inr h
    exact this ops _ (.inr hp)
  generalize run valid (init d) ops = s at hm
  induction after with
  | nil => rfl
  | cons o after ih =>
    have : (step valid s o).1 = s := by
      obtain ⟨p, h | h⟩ := hafter o List.mem_cons_self <;> subst h <;> simp [step, implicitFocus, hm]
    show run valid (step valid s o).1 after = s
    rw [this]
    exact ih (fun o ho => hafter o (List.mem_cons_of_mem _ ho))

/-- A history meeting the hypotheses: open, query, pin, focus elsewhere, unpin. -/
example :
    let ops : List (Op Nat) := [.opened 1, .queried 2, .opened 3]
    followed ops = some 2 ∧
      (run (fun _ => true) (init none) (ops ++ .pin (some 7) :: [.focus (some 4), .queried 5])).main = some 7 ∧
      (run (fun _ => true) (init none)
        (ops ++ .pin (some 7) :: [.focus (some 4), .queried 5] ++ [.pin none])).main = some 4 := by
  decide

/-- **C34 fails: a refused pin pins.** The pin request of an invalid path is answered with an error, and
yet the server no longer follows the files the user focuses. -/
theorem refused_pin_pins :
    let s := run (fun n => n ≠ 0) (init none) [.focus (some 1)]
    (step (fun n => n ≠ 0) s (.pin (some 0))).2 = false ∧
      (run (fun n => n ≠ 0) s [.pin (some 0), .focus (some 2)]).main = some 1 ∧
      (run (fun n => n ≠ 0) s [.focus (some 2)]).main = some 2 := by
  decide

/-- **C34 fails: a refused focus is followed.** The focus request of an invalid path is answered with an error; unpinning then
fails and leaves the pinned file as the main file, although the pin is gone. -/
theorem refused_focus_followed :
    let valid : Nat → Bool := fun n => n ≠ 0
    let s := run valid (init none) [.focus (some 1), .pin (some 7)]
    let s' := run valid (init none) [.focus (some 1), .focus (some 0), .pin (some 7)]
    (step valid (run valid (init none) [.focus (some 1)]) (.focus (some 0))).2 = false ∧
      (step valid s (.pin none)).1.main = some 1 ∧
      (step valid s' (.pin none)).2 = false ∧ (step valid s' (.pin none)).1.main = some 7 ∧
      (step valid s' (.pin none)).1.pinUser = false := by
  decide

/-- **C34 fails over a configuration change.** The user pins a file and then changes an option of the primary
project, say the font paths. The main file is gone, and the pin still keeps every focus request from setting
one. -/
theorem reload_loses_pin (after : List (Op Nat))
    (h : ∀ o ∈ after, Passive o = true) :
    (run (fun _ => true) (init none)
      ([.focus (some 1), .pin (some 7), .configure none true] ++ after)).main = none := by
  rw [run_append]
  have h0 : (run (fun _ => true) (init none)
      [.focus (some 1), .pin (some 7), .configure none true]).main = (none : Option Nat) ∧
      (run (fun _ => true) (init none)
      [.focus (some 1), .pin (some (7 : Nat)), .configure none true]).pinUser = true := by decide
  generalize run (fun _ => true) (init none)
      [.focus (some 1), .pin (some (7 : Nat)), .configure none true] = s at h0
  induction after generalizing s with
  | nil => exact h0.1
  | cons o after ih =>
    refine ih (fun o ho => h o (List.mem_cons_of_mem _ ho)) _ ?_
    have ho := h o List.mem_cons_self
    cases o with
    | focus q =>
      have := focusMain_fields (fun _ => true) { s with manual := true } q
      have h2 := focusMain_pinned (fun _ => true) { s with manual := true } q h0.2
      simp_all [step]
    | opened q =>
      simp only [step, implicitFocus]
      have := focusMain_fields (fun _ => true) s (some q)
      have h2 := focusMain_pinned (fun _ => true) s (some q) h0.2
      split
      · exact h0
      · simp only [Bool.false_eq_true, if_false]
        split
        · exact h0
        · simp_all
    | queried q =>
      simp only [step, implicitFocus]
      have := focusMain_fields (fun _ => true) { s with activities := true } (some q)
      have h2 := focusMain_pinned (fun _ => true) { s with activities := true } (some q) h0.2
      split
      · exact h0
      · simp_all
    | previewStop => exact h0
    | pin _ => simp [Passive] at ho
    | previewStart _ _ => simp [Passive] at ho
    | configure _ _ => simp [Passive] at ho

/-- **C34: previews and pins interfere.** Starting a preview on the primary project replaces the file the
user pinned; unpinning while such a preview runs replaces the previewed file. -/
theorem preview_and_pin :
    (run (fun _ => true) (init none) [.pin (some 7), .previewStart (some 9) false]).main = some 9 ∧
      (run (fun _ => true) (init none) [.pin (some 7), .previewStart (some 9) false]).pinUser = true ∧
      (run (fun _ => true) (init none)
        [.focus (some 1), .previewStart (some 9) false, .pin none]).main = some 1 ∧
      (run (fun _ => true) (init none)
        [.focus (some 1), .previewStart (some 9) false, .pin none]).pinPreview = true := by
  decide

end Tinymist.Focus
