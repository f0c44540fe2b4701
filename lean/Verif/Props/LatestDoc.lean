import Verif.Spec.LatestDoc

/-!
# The document that questions are answered from
-/

namespace Tinymist.LatestDoc

/-- What is committed is as new as all that was finished, and one of it. -/
structure Inv (s : St) : Prop where
  bound : ∀ d ok deps, Event.delivered d ok deps ∈ s.trace → d.rev ≤ s.committed
  zero : s.committed = 0 ∨ ∃ d ok deps, Event.delivered d ok deps ∈ s.trace ∧ d.rev = s.committed
  jobs : ∀ d ∈ s.jobs, 0 < d.rev ∧ d.rev ≤ s.rev
  past : s.committed ≤ s.rev ∧ 0 < s.rev
  latest : ∀ d, s.latest = some d → d.rev ≤ s.committed
  snap : ∀ p, s.snap = some p → p.rev ≤ s.rev ∧ (p.rev = s.rev → p.entry = s.entry) ∧ ∀ d, p.doc = some d → d.rev ≤ s.committed

theorem snapshot_facts {s : St} (h : Inv s) : s.snapshot.rev = s.rev ∧ s.snapshot.entry = s.entry ∧
    ∀ d, s.snapshot.doc = some d → d.rev ≤ s.committed := by
  unfold St.snapshot
  split
  · rename_i p hp
    split
    · rename_i e
      exact ⟨e, (h.snap p hp).2.1 e, (h.snap p hp).2.2⟩
    · exact ⟨rfl, rfl, h.latest⟩
  · exact ⟨rfl, rfl, h.latest⟩

theorem inv_init (e : Option Nat) : Inv (init e) :=
  ⟨by simp [init], .inl rfl, by simp [init], by simp [init], by simp [init], by simp [init]⟩

theorem inv_step {s : St} (h : Inv s) (o : Op) : Inv (step s o) := by
  cases o with
  | edit =>
    refine ⟨h.bound, h.zero, fun d hd => ⟨(h.jobs d hd).1, Nat.le_succ_of_le (h.jobs d hd).2⟩, ⟨Nat.le_succ_of_le h.past.1, by simp [step]⟩,
      h.latest, fun p hp => ⟨Nat.le_succ_of_le (h.snap p hp).1, fun e => ?_, (h.snap p hp).2.2⟩⟩
    have := (h.snap p hp).1
    simp only [step] at e
    omega
  | changeTask inputs entry =>
    cases entry with
    | none =>
      cases inputs with
      | false => exact ⟨h.bound, h.zero, h.jobs, h.past, h.latest, h.snap⟩
      | true =>
        refine ⟨h.bound, h.zero, fun d hd => ⟨(h.jobs d hd).1, Nat.le_succ_of_le (h.jobs d hd).2⟩,
          ⟨Nat.le_succ_of_le h.past.1, by simp [step]⟩, h.latest, fun p hp => ⟨Nat.le_succ_of_le (h.snap p hp).1, fun e => ?_, (h.snap p hp).2.2⟩⟩
        have := (h.snap p hp).1
        simp [step] at e
        omega
    | some e =>
      simp only [step, Option.isSome_some, Bool.or_true, if_true]
      refine ⟨?_, ?_, fun d hd => ⟨(h.jobs d hd).1, Nat.le_succ_of_le (h.jobs d hd).2⟩, ⟨Nat.le_succ_of_le h.past.1, by simp⟩, by simp,
        fun p hp => ⟨Nat.le_succ_of_le (h.snap p hp).1, fun e => ?_, (h.snap p hp).2.2⟩⟩
      · intro d ok deps hd
        simp only [List.mem_append, List.mem_singleton, reduceCtorEq, or_false] at hd
        exact h.bound d ok deps hd
      · rcases h.zero with hz | ⟨d, ok, deps, h1, h2⟩
        · exact .inl hz
        · exact .inr ⟨d, ok, deps, by simp [h1], h2⟩
      · have := (h.snap p hp).1
        simp only at e
        omega
  | start =>
    simp only [step]
    split
    · rename_i e he
      split
      · have hs := snapshot_facts h
        refine ⟨h.bound, h.zero, ?_, h.past, h.latest, ?_⟩
        · intro d hd
          rcases List.mem_append.mp hd with hd | hd
          · exact h.jobs d hd
          · rw [List.mem_singleton] at hd
            subst hd
            simp only [hs.1]
            exact ⟨h.past.2, Nat.le_refl _⟩
        · intro p hp
          cases hp
          exact ⟨Nat.le_of_eq hs.1, fun _ => hs.2.1, hs.2.2⟩
      · exact h
    · exact h
  | finish i ok deps =>
    simp only [step]
    split
    · rename_i d hd
      have hm := List.mem_of_getElem? hd
      have hj : ∀ x ∈ s.jobs.eraseIdx i, 0 < x.rev ∧ x.rev ≤ s.rev := fun x hx => h.jobs x (List.mem_of_mem_eraseIdx hx)
      unfold St.process
      split
      · rename_i hc
        simp only at hc
        refine ⟨?_, ?_, hj, h.past, h.latest, h.snap⟩
        · intro x o ds hx
          simp only [List.mem_append, List.mem_singleton] at hx
          rcases hx with hx | hx
          · exact h.bound x o ds hx
          · cases hx; exact hc
        · rcases h.zero with hz | ⟨x, o, ds, h1, h2⟩
          · exact .inl hz
          · exact .inr ⟨x, o, ds, by simp [h1], h2⟩
      · rename_i hc
        simp only at hc
        have hc : s.committed < d.rev := by omega
        refine ⟨?_, .inr ⟨d, ok, deps, by simp, rfl⟩, hj, ⟨(h.jobs d hm).2, h.past.2⟩, ?_, ?_⟩
        · intro x o ds hx
          simp only [List.mem_append, List.mem_singleton] at hx
          rcases hx with hx | hx
          · exact Nat.le_of_lt (Nat.lt_of_le_of_lt (h.bound x o ds hx) hc)
          · cases hx; exact Nat.le_refl _
        · intro x hx
          simp only at hx
          split at hx
          · cases hx; exact Nat.le_refl _
          · exact Nat.le_of_lt (Nat.lt_of_le_of_lt (h.latest x hx) hc)
        · intro p hp
          refine ⟨(h.snap p hp).1, (h.snap p hp).2.1, fun x hx => ?_⟩
          exact Nat.le_of_lt (Nat.lt_of_le_of_lt ((h.snap p hp).2.2 x hx) hc)
    · exact h
  | ask =>
    have hs := snapshot_facts h
    refine ⟨h.bound, h.zero, h.jobs, h.past, h.latest, ?_⟩
    intro p hp
    cases hp
    exact ⟨Nat.le_of_eq hs.1, fun _ => hs.2.1, hs.2.2⟩

theorem run_append (s : St) (a : List Op) (o : Op) : run s (a ++ [o]) = step (run s a) o := by simp [run]

theorem rev_ind {P : List Op → Prop} (h0 : P []) (hs : ∀ l o, P l → P (l ++ [o])) (l : List Op) : P l := by
  have : ∀ l : List Op, P l.reverse := by
    intro l
    induction l with
    | nil => exact h0
    | cons a l ih => rw [List.reverse_cons]; exact hs _ _ ih
  rw [← List.reverse_reverse l]
  exact this _

theorem inv_run (e : Option Nat) (ops : List Op) : Inv (run (init e) ops) := by
  have : ∀ (ops : List Op) (s : St), Inv s → Inv (run s ops) := by
    intro ops
    induction ops with
    | nil => exact fun s h => h
    | cons o ops ih => exact fun s h => ih _ (inv_step h o)
  exact this ops _ (inv_init e)

/-- **C170.** A question is always about the current state of the files and the current main file.
Missing: the document of a compilation that ends while nothing is changed. -/
theorem answer_current_partial (e : Option Nat) (ops : List Op) :
    (run (init e) ops).answer.rev = (run (init e) ops).rev ∧ (run (init e) ops).answer.entry = (run (init e) ops).entry :=
  ⟨(snapshot_facts (inv_run e ops)).1, (snapshot_facts (inv_run e ops)).2.1⟩

theorem newest_iff {s : St} (h : Inv s) {r : Nat} (hr : 0 < r) : Newest s.trace r ↔ s.committed < r := by
  constructor
  · intro hn
    rcases h.zero with hz | ⟨d, ok, deps, h1, h2⟩
    · omega
    · rw [← h2]; exact hn d ok deps h1
  · intro hc d ok deps hd
    exact Nat.lt_of_le_of_lt (h.bound d ok deps hd) hc

theorem append_cases {α} {a b : List α} {x y : α} {l : List α} (h : l ++ [y] = a ++ x :: b) :
    (b = [] ∧ a = l ∧ x = y) ∨ ∃ c, b = c ++ [y] ∧ l = a ++ x :: c := by
  rcases List.eq_nil_or_concat b with rfl | ⟨c, z, rfl⟩
  · have := List.append_inj' h (by simp)
    exact .inl ⟨rfl, this.1.symm, by simpa using this.2.symm⟩
  · rw [List.concat_eq_append, ← List.cons_append, ← List.append_assoc] at h
    have := List.append_inj' h (by simp)
    have hz : y = z := by simpa using this.2
    exact .inr ⟨c, by rw [List.concat_eq_append, hz], this.1⟩

/-- A result that is not newer changes nothing about which document is kept, nor does a failure. -/
theorem kept_skip {t : List Event} {e d : Doc} {ok : Bool} {deps : List Nat} (h : ¬ (ok = true ∧ Newest t e.rev)) :
    Kept (t ++ [.delivered e ok deps]) d ↔ Kept t d := by
  constructor
  · rintro ⟨a, ds, b, h1, h2, h3, h4⟩
    rcases append_cases h1 with ⟨rfl, rfl, hx⟩ | ⟨c, rfl, rfl⟩
    · cases hx
      exact absurd ⟨rfl, h2⟩ h
    · refine ⟨a, ds, c, rfl, h2, fun hc => h3 (by simp [hc]), ?_⟩
      rintro b1 x es b2 rfl
      exact h4 b1 x es (b2 ++ [.delivered e ok deps]) (by simp)
  · rintro ⟨a, ds, b, rfl, h2, h3, h4⟩
    refine ⟨a, ds, b ++ [.delivered e ok deps], by simp, h2, by simpa using h3, ?_⟩
    intro b1 x es b2 hb
    rcases append_cases hb with ⟨rfl, rfl, hx⟩ | ⟨c, rfl, hc⟩
    · cases hx
      exact fun hn => h ⟨rfl, hn⟩
    · exact h4 b1 x es c hc

theorem kept_new {t : List Event} {e d : Doc} {deps : List Nat} (hn : Newest t e.rev) : Kept (t ++ [.delivered e true deps]) d ↔ d = e := by
  constructor
  · rintro ⟨a, ds, b, h1, h2, h3, h4⟩
    rcases append_cases h1 with ⟨rfl, rfl, hx⟩ | ⟨c, rfl, rfl⟩
    · cases hx; rfl
    · exact absurd hn (h4 c e deps [] rfl)
  · rintro rfl
    exact ⟨t, deps, [], rfl, hn, by simp, by simp⟩

theorem kept_changed {t : List Event} {d : Doc} : ¬ Kept (t ++ [.changed]) d := by
  rintro ⟨a, ds, b, h1, h2, h3, h4⟩
  rcases append_cases h1 with ⟨rfl, rfl, hx⟩ | ⟨c, rfl, rfl⟩
  · cases hx
  · exact h3 (by simp)

/-- **C170.** The document kept is the last one made, of all compilations newer than those finished before, since the main file was changed. -/
theorem kept_iff (e : Option Nat) (ops : List Op) (d : Doc) : (run (init e) ops).latest = some d ↔ Kept (run (init e) ops).trace d := by
  have key : ∀ ops : List Op, (∀ d, (run (init e) ops).latest = some d ↔ Kept (run (init e) ops).trace d) := by
    refine rev_ind ?_ ?_
    · intro d
      constructor
      · intro h; cases h
      · rintro ⟨a, ds, b, h, -⟩
        have := congrArg List.length h
        simp [run, init] at this
    · intro l o ih
      rw [run_append]
      have hi := inv_run e l
      revert ih hi
      generalize run (init e) l = s
      intro ih hi d
      cases o with
      | edit => exact ih d
      | changeTask inputs entry =>
        cases entry with
        | none => cases inputs <;> exact ih d
        | some x =>
          simp only [step, Option.isSome_some, Bool.or_true, if_true]
          constructor
          · intro h; cases h
          · exact fun h => absurd h kept_changed
      | start =>
        simp only [step]
        split
        · split <;> exact ih d
        · exact ih d
      | ask => exact ih d
      | finish i ok deps =>
        simp only [step]
        split
        · rename_i x hx
          have hpos := (hi.jobs x (List.mem_of_getElem? hx)).1
          unfold St.process
          split
          · rename_i hc
            simp only at hc ⊢
            rw [kept_skip (fun h => by have := (newest_iff hi hpos).mp h.2; omega)]
            exact ih d
          · rename_i hc
            simp only at hc ⊢
            have hn := (newest_iff hi hpos).mpr (by omega)
            cases ok with
            | false =>
              rw [kept_skip (fun h => Bool.noConfusion h.1)]
              exact ih d
            | true =>
              rw [kept_new hn]
              simp [eq_comm]
        · exact ih d
  exact key ops d

/-- **C170.** The document kept never goes back to an older state of the files, unless the main file is changed in between. -/
theorem newer (e : Option Nat) (ops : List Op) (o : Op) (d d' : Doc) (h : (run (init e) ops).latest = some d)
    (h' : (run (init e) (ops ++ [o])).latest = some d') : d.rev ≤ d'.rev := by
  have hi := inv_run e ops
  rw [run_append] at h'
  revert h h' hi
  generalize run (init e) ops = s
  intro h h' hi
  cases o with
  | edit => rw [show (step s .edit).latest = s.latest from rfl, h] at h'; cases h'; exact Nat.le_refl _
  | changeTask inputs entry =>
    cases entry with
    | none =>
      have : (step s (.changeTask inputs none)).latest = s.latest := by cases inputs <;> rfl
      rw [this, h] at h'; cases h'; exact Nat.le_refl _
    | some x =>
      simp [step] at h'
  | start =>
    have : (step s .start).latest = s.latest := by
      simp only [step]; split
      · split <;> rfl
      · rfl
    rw [this, h] at h'; cases h'; exact Nat.le_refl _
  | ask => rw [show (step s .ask).latest = s.latest from rfl, h] at h'; cases h'; exact Nat.le_refl _
  | finish i ok deps =>
    simp only [step] at h'
    split at h'
    · rename_i x hx
      unfold St.process at h'
      split at h'
      · simp only at h'
        rw [h] at h'; cases h'; exact Nat.le_refl _
      · rename_i hc
        simp only at h' hc
        cases ok with
        | false => simp only [Bool.false_eq_true, if_false] at h'; rw [h] at h'; cases h'; exact Nat.le_refl _
        | true =>
          simp only [if_true] at h'
          cases h'
          have := hi.latest d h
          omega
    · rw [h] at h'; cases h'; exact Nat.le_refl _

/-- **C170.** What is watched are the dependencies of the newest result, with a document or not. -/
theorem deps_newest (e : Option Nat) (ops : List Op) (h : (run (init e) ops).committed ≠ 0) :
    Watched (run (init e) ops).trace (run (init e) ops).deps := by
  have key : ∀ ops : List Op, (run (init e) ops).committed = 0 ∨ ∃ a d ok b, (run (init e) ops).trace = a ++ .delivered d ok (run (init e) ops).deps :: b ∧
      Newest a d.rev ∧ (∀ x o es, Event.delivered x o es ∈ b → x.rev ≤ d.rev) ∧ d.rev = (run (init e) ops).committed := by
    refine rev_ind ?_ ?_
    · exact .inl rfl
    · intro l o ih
      rw [run_append]
      have hi := inv_run e l
      revert ih hi
      generalize run (init e) l = s
      intro ih hi
      cases o with
      | edit => exact ih
      | ask => exact ih
      | start =>
        simp only [step]
        split
        · split <;> exact ih
        · exact ih
      | changeTask inputs entry =>
        cases entry with
        | none => cases inputs <;> exact ih
        | some x =>
          simp only [step, Option.isSome_some, Bool.or_true, if_true]
          rcases ih with hz | ⟨a, d, ok, b, h1, h2, h3, h4⟩
          · exact .inl hz
          · refine .inr ⟨a, d, ok, b ++ [.changed], by rw [h1]; simp, h2, ?_, h4⟩
            intro y o es hy
            simp only [List.mem_append, List.mem_singleton, reduceCtorEq, or_false] at hy
            exact h3 y o es hy
      | finish i ok deps =>
        simp only [step]
        split
        · rename_i x hx
          have hpos := (hi.jobs x (List.mem_of_getElem? hx)).1
          unfold St.process
          split
          · rename_i hc
            simp only at hc ⊢
            rcases ih with hz | ⟨a, d, o, b, h1, h2, h3, h4⟩
            · omega
            · refine .inr ⟨a, d, o, b ++ [.delivered x ok deps], by rw [h1]; simp, h2, ?_, h4⟩
              intro y o' es hy
              simp only [List.mem_append, List.mem_singleton] at hy
              rcases hy with hy | hy
              · exact h3 y o' es hy
              · cases hy; omega
          · rename_i hc
            simp only at hc ⊢
            exact .inr ⟨s.trace, x, ok, [], rfl, (newest_iff hi hpos).mpr (by omega), by simp, rfl⟩
        · exact ih
  rcases key ops with hz | ⟨a, d, ok, b, h1, h2, h3, -⟩
  · exact absurd hz h
  · exact ⟨a, d, ok, b, h1, h2, h3⟩

/-! ## The document of an answer -/

/-- **C170.** After a change of a file, a question is answered from the document kept at the time it is asked. -/
theorem fresh_after_edit (e : Option Nat) (ops : List Op) : (run (init e) (ops ++ [.edit])).answer.doc = (run (init e) (ops ++ [.edit])).latest := by
  rw [run_append]
  have hi := inv_run e ops
  revert hi
  generalize run (init e) ops = s
  intro hi
  unfold St.answer St.snapshot
  cases hs : s.snap with
  | none => simp only [step, hs]; rfl
  | some p =>
    have := (hi.snap p hs).1
    simp only [step, hs]
    rw [if_neg (by omega)]
    rfl

/-- **C170.** What an answer is made from is never newer than what is finished. -/
theorem answer_finished (e : Option Nat) (ops : List Op) (d : Doc) (h : (run (init e) ops).answer.doc = some d) :
    d.rev ≤ (run (init e) ops).committed := (snapshot_facts (inv_run e ops)).2.2 d h

/-- **C170, violated.** When the compilation of the current state is finished, questions are still answered from the document before it, as
long as nothing is changed. -/
theorem stale_answer (e : Nat) (ops : List Op) (deps : List Nat) (s : St) (hs : s = run (init (some e)) ops) (hr : s.reason = true)
    (he : s.entry = some e) (hc : s.committed < s.rev) :
    let t := run (init (some e)) (ops ++ [.start] ++ [.finish s.jobs.length true deps])
    t.latest = some ⟨s.rev, e⟩ ∧ t.rev = s.rev ∧ t.answer.doc = s.answer.doc ∧ t.answer.doc ≠ t.latest := by
  have hi : Inv s := by rw [hs]; exact inv_run _ ops
  have hf := snapshot_facts hi
  have e1 : step s .start = { s with snap := some s.snapshot, reason := false, jobs := s.jobs ++ [Doc.mk s.rev e] } := by
    simp only [step, he, hr, if_true, hf.1, hf.2.1.trans he, Option.getD_some]
  have e2 : step (step s .start) (.finish s.jobs.length true deps) =
      { s with
        snap := some s.snapshot, reason := false, jobs := (s.jobs ++ [Doc.mk s.rev e]).eraseIdx s.jobs.length,
        trace := s.trace ++ [.delivered ⟨s.rev, e⟩ true deps], committed := s.rev, latest := some ⟨s.rev, e⟩, deps := deps } := by
    rw [e1]
    simp only [step, List.getElem?_concat_length, St.process]
    rw [if_neg (by omega)]
    rfl
  have e3 : run (init (some e)) (ops ++ [.start] ++ [.finish s.jobs.length true deps]) =
      step (step s .start) (.finish s.jobs.length true deps) := by
    rw [run_append, run_append, ← hs]
  intro t
  have ht : t = _ := e3.trans e2
  rw [ht]
  have ha : St.answer { s with
        snap := some s.snapshot, reason := false, jobs := (s.jobs ++ [Doc.mk s.rev e]).eraseIdx s.jobs.length,
        trace := s.trace ++ [.delivered ⟨s.rev, e⟩ true deps], committed := s.rev, latest := some ⟨s.rev, e⟩, deps := deps } = s.snapshot := by
    unfold St.answer
    rw [St.snapshot]
    simp only
    rw [if_pos hf.1]
  refine ⟨rfl, rfl, by rw [ha]; rfl, ?_⟩
  rw [ha]
  intro h
  have := hf.2.2 _ h
  simp only at this
  omega

/-- **C170, violated.** A compilation that was going on while the main file was changed leaves its document: questions about the new main file are
answered from the document of the old one. -/
theorem other_file (a b : Nat) (hab : a ≠ b) (deps : List Nat) :
    ∃ ops, (run (init (some a)) ops).answer.entry = some b ∧ (run (init (some a)) ops).answer.doc.map Doc.entry = some a ∧
      (run (init (some a)) ops).entry = some b ∧ a ≠ b :=
  ⟨[.edit, .start, .changeTask false (some (some b)), .finish 0 true deps, .start], rfl, rfl, rfl, hab⟩

/-! ## When compilations begin -/

/-- What asks for a compilation. -/
def Wish : Op → Prop
  | .edit => True
  | .changeTask _ _ => True
  | _ => False

theorem reason_kept (s : St) (ops : List Op) (h : ∀ o ∈ ops, o ≠ .start) (hr : s.reason = true) : (run s ops).reason = true := by
  induction ops generalizing s with
  | nil => exact hr
  | cons o ops ih =>
    refine ih (step s o) (fun o' ho => h o' (List.mem_cons_of_mem _ ho)) ?_
    cases o with
    | start => exact absurd rfl (h _ (List.mem_cons_self ..))
    | edit => rfl
    | changeTask i e => cases e <;> rfl
    | ask => exact hr
    | finish i ok deps =>
      simp only [step]
      cases s.jobs[i]? with
      | none => exact hr
      | some d =>
        simp only [St.process]
        split <;> exact hr

theorem no_reason_kept (s : St) (ops : List Op) (h : ∀ o ∈ ops, ¬ Wish o) (hr : s.reason = false) : (run s ops).reason = false := by
  induction ops generalizing s with
  | nil => exact hr
  | cons o ops ih =>
    refine ih (step s o) (fun o' ho => h o' (List.mem_cons_of_mem _ ho)) ?_
    cases o with
    | edit => exact absurd trivial (h _ (List.mem_cons_self ..))
    | changeTask i e => exact absurd trivial (h (.changeTask i e) (List.mem_cons_self ..))
    | ask => exact hr
    | start =>
      simp only [step, hr]
      cases s.entry <;> exact hr
    | finish i ok deps =>
      simp only [step]
      cases s.jobs[i]? with
      | none => exact hr
      | some d =>
        simp only [St.process]
        split <;> exact hr

/-- **C170.** After a change, whatever else is asked or finished meanwhile, an active project begins a compilation of its current files and main
file. -/
theorem begins (e : Option Nat) (ops more : List Op) (o : Op) (ho : Wish o) (hm : ∀ o' ∈ more, o' ≠ .start) (m : Nat)
    (he : (run (init e) (ops ++ o :: more)).entry = some m) :
    (run (init e) (ops ++ o :: more ++ [.start])).jobs =
      (run (init e) (ops ++ o :: more)).jobs ++ [⟨(run (init e) (ops ++ o :: more)).rev, m⟩] := by
  have hr : (run (init e) (ops ++ o :: more)).reason = true := by
    have : run (init e) (ops ++ o :: more) = run (step (run (init e) ops) o) more := by simp [run]
    rw [this]
    refine reason_kept _ more hm ?_
    cases o with
    | edit => rfl
    | changeTask i x => cases x <;> rfl
    | start => exact absurd ho id
    | ask => exact absurd ho id
    | finish i ok deps => exact absurd ho id
  have hf := snapshot_facts (inv_run e (ops ++ o :: more))
  rw [run_append]
  simp only [step, he, hr, if_true]
  rw [hf.1, hf.2.1, he]
  rfl

/-- **C170.** Nothing is compiled unless something changed: not when the project is new, and not again after a compilation has begun. -/
theorem begins_only (e : Option Nat) (ops more : List Op) (hm : ∀ o ∈ more, ¬ Wish o) :
    (run (init e) more).jobs = [] ∧
    ((run (init e) ops).entry ≠ none → (run (init e) (ops ++ .start :: more ++ [.start])).jobs = (run (init e) (ops ++ .start :: more)).jobs) := by
  have quiet : ∀ s : St, s.reason = false → (step s .start) = s := by
    intro s hs
    simp only [step, hs]
    cases s.entry <;> rfl
  constructor
  · have : ∀ (s : St), s.reason = false → s.jobs = [] → (run s more).jobs = [] := by
      intro s
      induction more generalizing s with
      | nil => exact fun _ h => h
      | cons o more ih =>
        intro hr hj
        refine ih (fun o' ho => hm o' (List.mem_cons_of_mem _ ho)) (step s o) (no_reason_kept s [o] (fun o' ho => ?_) hr) ?_
        · rw [List.mem_singleton.mp ho]
          exact hm o (List.mem_cons_self ..)
        · cases o with
          | edit => exact absurd trivial (hm _ (List.mem_cons_self ..))
          | changeTask i x => exact absurd trivial (hm (.changeTask i x) (List.mem_cons_self ..))
          | ask => exact hj
          | start => rw [quiet s hr]; exact hj
          | finish i ok deps =>
            simp only [step, hj]
            exact hj
    exact this _ rfl rfl
  · intro he
    rw [run_append, quiet]
    have : run (init e) (ops ++ .start :: more) = run (step (run (init e) ops) .start) more := by simp [run]
    rw [this]
    refine no_reason_kept _ more hm ?_
    cases hx : (run (init e) ops).entry with
    | none => exact absurd hx he
    | some m =>
      simp only [step, hx]
      split
      · rfl
      · rename_i h
        simpa using h

/-! ## The hypotheses are met -/

/-- After the first compilation of a file that was opened, questions are answered without a document. -/
example : (run (init (some 7)) [.edit, .start, .finish 0 true [1, 2]]).latest = some ⟨2, 7⟩ ∧
    (run (init (some 7)) [.edit, .start, .finish 0 true [1, 2]]).answer.doc = none := by decide

example : (run (init (some 7)) [.edit]).reason = true ∧ (run (init (some 7)) [.edit]).entry = some 7 ∧
    (run (init (some 7)) [.edit]).committed < (run (init (some 7)) [.edit]).rev := by decide

example : (run (init (some 7)) [.changeTask false (some (some 8)), .ask, .start]).jobs = [⟨2, 8⟩] := by decide

end Tinymist.LatestDoc
