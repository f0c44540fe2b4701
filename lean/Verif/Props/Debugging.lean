import Verif.Spec.Debugging
import Verif.Lemmas.Util
import Verif.Props.Breakpoint

/-!
# C140: debugging
-/
namespace Tinymist.Debugging
open Spec

/-! ## Requests -/

theorem last_cases {α : Type} (l : List α) : l = [] ∨ ∃ a x, l = a ++ [x] := by
  induction l using Util.reverseInd with
  | nil => exact Or.inl rfl
  | append_singleton a x _ => exact Or.inr ⟨a, x, rfl⟩

theorem run_append (env : Env) (s : State) (a b : List Req) :
    run env s (a ++ b) = (run env s a).bind fun t => run env t b := by
  induction a generalizing s with
  | nil => rfl
  | cons r rs ih =>
    rw [List.cons_append, run, run]
    cases step env s r with
    | none => rfl
    | some p => exact ih p.1

theorem filesAfter_append (f : Files) (a b : List Req) : filesAfter f (a ++ b) = filesAfter (filesAfter f a) b := by
  induction a generalizing f with
  | nil => rfl
  | cons r rs ih => cases r <;> exact ih _

/-- What one request does to the files. -/
theorem step_files {env : Env} {s t : State} {r : Req} {o : Reply × List Sent} (h : step env s r = some (t, o)) :
    t.files = filesAfter s.files [r] := by
  cases r with
  | start m a =>
    simp only [step] at h
    cases a with
    | none => cases h
    | some a =>
      simp only [launch] at h
      split at h
      · cases h; rfl
      · split at h <;> cases h <;> rfl
  | terminateThreads ids =>
    simp only [step, Option.some.injEq, Prod.mk.injEq] at h
    rw [← h.1]
    unfold terminateThreads
    split
    · rfl
    · split
      · rfl
      · split <;> rfl
  | _ => simp only [step, Option.some.injEq, Prod.mk.injEq] at h; rw [← h.1]; rfl

theorem run_files {env : Env} {s t : State} {hist : List Req} (h : run env s hist = some t) :
    t.files = filesAfter s.files hist := by
  induction hist generalizing s with
  | nil => cases h; rfl
  | cons r rs ih =>
    rw [run] at h
    cases hs : step env s r with
    | none => rw [hs] at h; cases h
    | some p =>
      obtain ⟨u, o⟩ := p
      rw [hs] at h
      rw [ih h, step_files hs, ← filesAfter_append]
      rfl

/-- A launch of a program that is there begins a session with the files as they are. -/
theorem step_starts {env : Env} {s t : State} {r : Req} {o : Reply × List Sent} {main : Name} {text : String}
    (hst : Starts env s.files r main text) (h : step env s r = some (t, o)) :
    ∃ b, t.session = some ⟨s.files, main, text, text.utf8ByteSize, b⟩ := by
  obtain ⟨m, a, rfl, he, hf⟩ := hst
  simp only [step, launch, he, hf, Option.some.injEq, Prod.mk.injEq] at h
  exact ⟨_, by rw [← h.1]⟩

theorem step_ends {env : Env} {s t : State} {r : Req} {o : Reply × List Sent} (he : Ends r)
    (h : step env s r = some (t, o)) : t.session = none := by
  rcases he with rfl | rfl | ⟨ids, rfl, hne, hall⟩
  · simp only [step, Option.some.injEq, Prod.mk.injEq] at h; rw [← h.1]
  · simp only [step, Option.some.injEq, Prod.mk.injEq] at h; rw [← h.1]
  · simp only [step, Option.some.injEq, Prod.mk.injEq] at h
    rw [← h.1]
    simp only [terminateThreads]
    rw [if_neg (by simpa using hne), if_pos (by simpa using hall)]

theorem step_keeps {env : Env} {s t : State} {r : Req} {o : Reply × List Sent} (he : ¬ Ends r)
    (hs : ∀ main text, ¬ Starts env s.files r main text) (h : step env s r = some (t, o)) : t.session = s.session := by
  cases r with
  | start m a =>
    simp only [step] at h
    cases a with
    | none => cases h
    | some a =>
      simp only [launch] at h
      split at h
      · cases h; rfl
      · rename_i main hm
        split at h
        · cases h; rfl
        · rename_i text ht
          exact absurd ⟨m, a, rfl, hm, ht⟩ (hs main text)
  | disconnect => exact absurd (Or.inl rfl) he
  | terminate => exact absurd (Or.inr (Or.inl rfl)) he
  | terminateThreads ids =>
    simp only [step, Option.some.injEq, Prod.mk.injEq] at h
    rw [← h.1]
    unfold terminateThreads
    split
    · rfl
    · rename_i ids
      split
      · rfl
      · rename_i h1
        split
        · rename_i h2
          exact absurd (Or.inr (Or.inr ⟨ids, rfl, by simpa using h1, by simpa using h2⟩)) he
        · rfl
  | _ => simp only [step, Option.some.injEq, Prod.mk.injEq] at h; rw [← h.1]

/-- The session after a history is that of the program that is debugged after it. -/
theorem session_iff {env : Env} {f0 : Files} {hist : List Req} {s : State} (h : run env ⟨f0, none⟩ hist = some s)
    (f : Files) (main : Name) (text : String) :
    (∃ b, s.session = some ⟨f, main, text, text.utf8ByteSize, b⟩) ↔ Debugs env f0 hist f main text := by
  induction hist using Util.reverseInd generalizing s with
  | nil =>
    cases h
    constructor
    · rintro ⟨b, h⟩; cases h
    · rintro ⟨pre, r, post, h, _⟩
      cases pre <;> cases h
  | append_singleton hs r ih =>
    rw [run_append] at h
    cases h1 : run env ⟨f0, none⟩ hs with
    | none => rw [h1] at h; cases h
    | some t =>
      rw [h1, Option.bind_some, run] at h
      cases h2 : step env t r with
      | none => rw [h2] at h; cases h
      | some p =>
        obtain ⟨u, o⟩ := p
        rw [h2] at h
        simp only [run, Option.some.injEq] at h
        subst h
        have hf : t.files = filesAfter f0 hs := run_files h1
        by_cases hst : ∃ m' t', Starts env t.files r m' t'
        · obtain ⟨m', t', hst⟩ := hst
          obtain ⟨b, hb⟩ := step_starts hst h2
          rw [hb]
          constructor
          · rintro ⟨b', hb'⟩
            cases hb'
            refine ⟨hs, r, [], rfl, hf, hst, ?_⟩
            intro p q rest e
            cases p <;> cases e
          · rintro ⟨pre, r', post, e, hfe, hst', hafter⟩
            rcases last_cases post with rfl | ⟨post', q, rfl⟩
            · have := List.append_inj' e rfl
              obtain ⟨rfl, e2⟩ := this
              cases e2
              rw [← hf] at hfe
              subst hfe
              obtain ⟨m1, a1, e1, h11, h12⟩ := hst
              obtain ⟨m2, a2, e2, h21, h22⟩ := hst'
              rw [e1] at e2
              cases e2
              rw [h11] at h21
              cases h21
              rw [h12] at h22
              cases h22
              exact ⟨b, rfl⟩
            · have e' : hs ++ [r] = (pre ++ r' :: post') ++ [q] := by simpa using e
              obtain ⟨rfl, e2⟩ := List.append_inj' e' rfl
              cases e2
              have := (hafter post' r [] rfl).2 m' t'
              rw [← hf] at this
              exact absurd hst this
        · by_cases hen : Ends r
          · have hn := step_ends hen h2
            rw [hn]
            constructor
            · rintro ⟨b, hb⟩; cases hb
            · rintro ⟨pre, r', post, e, hfe, hst', hafter⟩
              exfalso
              rcases last_cases post with rfl | ⟨post', q, rfl⟩
              · obtain ⟨rfl, e2⟩ := List.append_inj' e rfl
                cases e2
                subst hfe
                rw [← hf] at hst'
                exact hst ⟨_, _, hst'⟩
              · have e' : hs ++ [r] = (pre ++ r' :: post') ++ [q] := by simpa using e
                obtain ⟨rfl, e2⟩ := List.append_inj' e' rfl
                cases e2
                exact (hafter post' r [] rfl).1 hen
          · have hk := step_keeps hen (fun m' t' hs' => hst ⟨m', t', hs'⟩) h2
            rw [hk, ih h1]
            constructor
            · rintro ⟨pre, r', post, rfl, hfe, hst', hafter⟩
              refine ⟨pre, r', post ++ [r], by simp, hfe, hst', ?_⟩
              intro p q rest e
              rcases last_cases rest with rfl | ⟨rest', q', rfl⟩
              · obtain ⟨rfl, e2⟩ := List.append_inj' e rfl
                cases e2
                refine ⟨hen, fun m' t' hs' => hst ⟨m', t', ?_⟩⟩
                rw [hf]
                exact hs'
              · have e' : post ++ [r] = (p ++ q :: rest') ++ [q'] := by simpa using e
                obtain ⟨rfl, _⟩ := List.append_inj' e' rfl
                exact hafter p q rest' rfl
            · rintro ⟨pre, r', post, e, hfe, hst', hafter⟩
              rcases last_cases post with rfl | ⟨post', q, rfl⟩
              · exfalso
                obtain ⟨rfl, e2⟩ := List.append_inj' e rfl
                cases e2
                subst hfe
                rw [← hf] at hst'
                exact hst ⟨_, _, hst'⟩
              · have e' : hs ++ [r] = (pre ++ r' :: post') ++ [q] := by simpa using e
                obtain ⟨rfl, e2⟩ := List.append_inj' e' rfl
                refine ⟨pre, r', post', rfl, hfe, hst', ?_⟩
                intro p q' rest e3
                exact hafter p q' (rest ++ [q]) (by rw [e3]; simp)

/-- Every session has the form of a launch. -/
theorem session_form {env : Env} {f0 : Files} {hist : List Req} {s : State} (h : run env ⟨f0, none⟩ hist = some s)
    {d : Session} (hd : s.session = some d) : d.position = d.text.utf8ByteSize := by
  have key : ∀ (hist : List Req) (t : State), (∀ d, t.session = some d → d.position = d.text.utf8ByteSize) →
      run env t hist = some s → d.position = d.text.utf8ByteSize := by
    intro hist
    induction hist with
    | nil => intro t ht h; cases h; exact ht d hd
    | cons r rs ih =>
      intro t ht h
      rw [run] at h
      cases hs : step env t r with
      | none => rw [hs] at h; cases h
      | some p =>
        obtain ⟨u, o⟩ := p
        rw [hs] at h
        refine ih u ?_ h
        intro d' hd'
        by_cases hst : ∃ m' t', Starts env t.files r m' t'
        · obtain ⟨m', t', hst⟩ := hst
          obtain ⟨b, hb⟩ := step_starts hst hs
          rw [hb] at hd'
          cases hd'
          rfl
        · by_cases hen : Ends r
          · rw [step_ends hen hs] at hd'; cases hd'
          · rw [step_keeps hen (fun m' t' hs' => hst ⟨m', t', hs'⟩) hs] at hd'
            exact ht d' hd'
  exact key hist ⟨f0, none⟩ (fun d hd => by cases hd) h

/-- An expression is evaluated at the end of the program that is debugged, with the files as they were when it was
launched, whatever was edited since. -/
theorem evaluates_launched {env : Env} {f0 : Files} {hist : List Req} {s : State}
    (h : run env ⟨f0, none⟩ hist = some s) {f : Files} {main : Name} {text : String}
    (hd : Debugs env f0 hist f main text) (expr : String) :
    step env s (.evaluate expr) = some (s, (match env.eval f main text text.utf8ByteSize expr with
      | none => .refused
      | some (r, t) => .value r t), []) := by
  obtain ⟨b, hb⟩ := (session_iff h f main text).mpr hd
  simp only [step, evaluate, hb]
  rfl

/-- Nothing is evaluated and completed if nothing is debugged. -/
theorem refused_without {env : Env} {f0 : Files} {hist : List Req} {s : State} (h : run env ⟨f0, none⟩ hist = some s)
    (hd : ∀ f main text, ¬ Debugs env f0 hist f main text) (expr : String) :
    step env s (.evaluate expr) = some (s, .refused, []) ∧ step env s .completions = some (s, .refused, []) := by
  have hn : s.session = none := by
    cases hs : s.session with
    | none => rfl
    | some d =>
      exfalso
      refine hd d.files d.main d.text ((session_iff h _ _ _).mp ⟨d.stopOnEntry, ?_⟩)
      rw [hs, ← session_form h hs]
  simp [step, evaluate, hn]

/-- A launch of a program that is there announces the process, its thread and that it stopped, in this order, whether or
not it was asked to stop. -/
theorem launch_announces {env : Env} {s : State} {m : Method} {a : Args} {main : Name} {text : String}
    (he : env.entry a.root a.program = some main) (hf : s.files main = some text) :
    ∃ t, step env s (.start m (some a)) = some (t, .ok, [.process m, .threadStarted 1, .stopped 1]) := by
  simp [step, launch, he, hf]

/-- A launch of a program that is not there is refused and announces nothing. -/
theorem launch_refused {env : Env} {s : State} {m : Method} {a : Args}
    (hs : ∀ main text, ¬ Starts env s.files (.start m (some a)) main text) :
    step env s (.start m (some a)) = some (s, .refused, []) := by
  simp only [step, launch]
  split
  · rfl
  · rename_i main hm
    split
    · rfl
    · rename_i text ht
      exact absurd ⟨m, a, rfl, hm, ht⟩ (hs main text)

/-- No request brings the adapter down but a launch with arguments that cannot be read, which always does. -/
theorem only_bad_launch_panics {env : Env} (f0 : Files) (hist : List Req) :
    run env ⟨f0, none⟩ hist = none ↔ ¬ Readable hist := by
  have key : ∀ (hist : List Req) (s : State), run env s hist = none ↔ ¬ Readable hist := by
    intro hist
    induction hist with
    | nil => intro s; exact iff_of_false (fun h => by cases h) (fun h => h (fun m hm => by cases hm))
    | cons r rs ih =>
      intro s
      have hr : (step env s r = none) ↔ ∃ m, r = .start m none := by
        cases r with
        | start m a =>
          cases a with
          | none => exact iff_of_true rfl ⟨m, rfl⟩
          | some a =>
            refine iff_of_false ?_ (by rintro ⟨m', e⟩; cases e)
            simp only [step, launch]
            split
            · exact fun h => by cases h
            · split <;> exact fun h => by cases h
        | _ => exact iff_of_false (fun h => by cases h) (by rintro ⟨m, e⟩; cases e)
      rw [run]
      cases hs : step env s r with
      | none =>
        obtain ⟨m, rfl⟩ := hr.mp hs
        exact iff_of_true rfl (fun h => h m (List.mem_cons_self ..))
      | some p =>
        simp only
        rw [ih]
        refine not_congr ⟨fun h m hm => ?_, fun h m hm => h m (List.mem_cons_of_mem _ hm)⟩
        rcases List.mem_cons.mp hm with e | hm
        · rw [hr.mpr ⟨m, e.symm⟩] at hs; cases hs
        · exact h m hm
  exact key hist _

/-! ## The thread -/

variable {C R : Type}

theorem serve_spec {ev : Eval C R} {res : C → String → R} (hev : ∀ c e, ev c e = some (res c e)) (c : C)
    (pre post : List C) (rs : List Ask) :
    (serve ev c rs).2.2 = true ∧ shape (serve ev c rs).1 = [] ∧
    expected res (pre ++ c :: post) pre.length rs =
      answers (serve ev c rs).1 ++ expected res (pre ++ c :: post) (pre.length + 1) (serve ev c rs).2.1 := by
  induction rs with
  | nil => exact ⟨rfl, rfl, rfl⟩
  | cons r rs ih =>
    cases r with
    | goOn => exact ⟨rfl, rfl, rfl⟩
    | evaluate id e =>
      obtain ⟨h1, h2, h3⟩ := ih
      simp only [serve, hev]
      refine ⟨h1, ?_, ?_⟩
      · rw [shape, List.filter_cons]
        exact h2
      · rw [expected, List.getElem?_append_right (Nat.le_refl _), Nat.sub_self, List.getElem?_cons_zero]
        simp only
        rw [h3]
        rfl

theorem stops_spec {ev : Eval C R} {res : C → String → R} (hev : ∀ c e, ev c e = some (res c e)) (pre cs post : List C)
    (rs : List Ask) :
    (stops ev cs rs).2.2 = true ∧ shape (stops ev cs rs).1 = cs.map .stopped ∧
    expected res (pre ++ cs ++ post) pre.length rs =
      answers (stops ev cs rs).1 ++ expected res (pre ++ cs ++ post) (pre ++ cs).length (stops ev cs rs).2.1 := by
  induction cs generalizing pre rs with
  | nil => refine ⟨rfl, rfl, ?_⟩; rw [List.append_nil]; rfl
  | cons c cs ih =>
    obtain ⟨h1, h2, h3⟩ := serve_spec hev c pre (cs ++ post) rs
    obtain ⟨g1, g2, g3⟩ := ih (pre ++ [c]) (serve ev c rs).2.1
    have hs : serve ev c rs = ((serve ev c rs).1, (serve ev c rs).2.1, true) := by rw [← h1]
    have e1 : stops ev (c :: cs) rs =
        (.stopped c :: (serve ev c rs).1 ++ (stops ev cs (serve ev c rs).2.1).1, (stops ev cs (serve ev c rs).2.1).2.1,
          (stops ev cs (serve ev c rs).2.1).2.2) := by
      rw [stops, hs]
    have e2 : pre ++ c :: cs ++ post = pre ++ c :: (cs ++ post) := by simp
    have e3 : pre ++ [c] ++ cs ++ post = pre ++ c :: (cs ++ post) := by simp
    have e4 : (pre ++ [c]).length = pre.length + 1 := by simp
    have e5 : (pre ++ [c] ++ cs).length = (pre ++ c :: cs).length := by simp
    rw [e3, e4, e5] at g3
    refine ⟨by rw [e1]; exact g1, ?_, ?_⟩
    · rw [e1]
      simp only [shape, List.cons_append, List.filter_cons, List.filter_append, if_true, List.map_cons]
      simp only [shape] at h2 g2
      rw [h2, g2]
      rfl
    · rw [e1, e2, h3, g3]
      simp only [answers, List.cons_append, List.filterMap_cons, List.filterMap_append, List.append_assoc]

/-- A thread whose session is accepted stops before the compilation, at each place of it, and after it, in order, and then
terminates. -/
theorem thread_order {ev : Eval C R} {res : C → String → R} (hev : ∀ c e, ev c e = some (res c e)) (first : C)
    (cs : List C) (last : C) (rs : List Ask) :
    shape (thread ev true first cs last rs) =
      [.beforeCompile, .stopped first] ++ cs.map .stopped ++ [.afterCompile, .stopped last, .terminate] := by
  obtain ⟨h1, h2, _⟩ := stops_spec hev [] (first :: cs) [] rs
  obtain ⟨g1, g2, _⟩ := stops_spec hev [] [last] [] (stops ev (first :: cs) rs).2.1
  have e1 : stops ev (first :: cs) rs = ((stops ev (first :: cs) rs).1, (stops ev (first :: cs) rs).2.1, true) := by
    rw [← h1]
  have e2 : stops ev [last] (stops ev (first :: cs) rs).2.1 =
      ((stops ev [last] (stops ev (first :: cs) rs).2.1).1, (stops ev [last] (stops ev (first :: cs) rs).2.1).2.1, true) := by
    rw [← g1]
  rw [thread, if_pos rfl, e1]
  simp only
  rw [e2]
  simp only [shape] at h2 g2
  simp only [shape, List.cons_append, List.filter_cons, List.filter_append, if_true, h2, g2, List.map_cons, List.map_nil,
    List.filter_nil, List.nil_append, List.append_assoc]

/-- Every request is answered once, with its number, at the place where the program is then: after as many stops as it was
told to go on before. Partial: evaluation must not come to a breakpoint itself, see `evaluation_hangs`. -/
theorem answered_in_place_partial {ev : Eval C R} {res : C → String → R} (hev : ∀ c e, ev c e = some (res c e)) (first : C)
    (cs : List C) (last : C) (rs : List Ask) :
    answers (thread ev true first cs last rs) = expected res (first :: cs ++ [last]) 0 rs := by
  obtain ⟨h1, _, h3⟩ := stops_spec hev [] (first :: cs) [last] rs
  obtain ⟨g1, _, g3⟩ := stops_spec hev (first :: cs) [last] [] (stops ev (first :: cs) rs).2.1
  have e1 : stops ev (first :: cs) rs = ((stops ev (first :: cs) rs).1, (stops ev (first :: cs) rs).2.1, true) := by
    rw [← h1]
  have e2 : stops ev [last] (stops ev (first :: cs) rs).2.1 =
      ((stops ev [last] (stops ev (first :: cs) rs).2.1).1, (stops ev [last] (stops ev (first :: cs) rs).2.1).2.1, true) := by
    rw [← g1]
  have over : ∀ (ps : List C) (k : Nat) (rs : List Ask), ps.length ≤ k → expected res ps k rs = [] := by
    intro ps k rs
    induction rs generalizing k with
    | nil => intro _; rfl
    | cons r rs ih =>
      intro hk
      cases r with
      | goOn => exact ih (k + 1) (by omega)
      | evaluate id e => rw [expected, List.getElem?_eq_none hk]
  rw [over _ (first :: cs ++ [last]).length _ (by simp), List.append_nil, List.append_nil] at g3
  simp only [List.nil_append, List.length_nil] at h3
  rw [h3, g3, thread, if_pos rfl, e1]
  simp only
  rw [e2]
  simp only [answers, List.cons_append, List.filterMap_cons, List.filterMap_append, List.filterMap_nil, List.append_nil]

/-- If evaluating an expression comes to a breakpoint, the thread waits for itself: it never answers, goes on or
terminates. -/
theorem evaluation_hangs {ev : Eval C R} {first : C} {cs : List C} {last : C} {id : Int} {e : String} {rs : List Ask}
    (h : ev first e = none) : thread ev true first cs last (.evaluate id e :: rs) = [.beforeCompile, .stopped first] := by
  rw [thread, if_pos rfl, stops, serve, h]

/-- The same at the last stop: everything before it was passed on, and nothing follows. -/
theorem last_evaluation_hangs {ev : Eval C R} {first : C} {cs : List C} {last : C} {id : Int} {e : String} {rs : List Ask}
    (h : ev last e = none) : thread ev true first cs last (List.replicate (cs.length + 1) .goOn ++ .evaluate id e :: rs) =
      [.beforeCompile, .stopped first] ++ cs.map .stopped ++ [.afterCompile, .stopped last] := by
  have key : ∀ (cs : List C) (rs : List Ask), stops ev cs (List.replicate cs.length .goOn ++ rs) = (cs.map Call.stopped, rs, true) := by
    intro cs rs
    induction cs with
    | nil => rfl
    | cons c cs ih =>
      rw [List.length_cons, List.replicate_succ, List.cons_append, stops, serve]
      simp only [ih]
      rfl
  have h1 := key (first :: cs) (.evaluate id e :: rs)
  rw [List.length_cons] at h1
  rw [thread, if_pos rfl, h1]
  simp only
  rw [stops, serve, h]
  simp

/-- A session is ended by a request to disconnect without a word, and by one to terminate with an announcement. -/
theorem end_announced (env : Env) (s : State) : (∃ t, step env s .disconnect = some (t, .ok, []) ∧ t.session = none) ∧
    ∃ t, step env s .terminate = some (t, .ok, [.terminated]) ∧ t.session = none := ⟨⟨_, rfl, rfl⟩, ⟨_, rfl, rfl⟩⟩

/-- The threads are those that were announced with the launch, and they are the ones that stop. -/
theorem threads_announced {env : Env} {s t : State} {m : Method} {a : Args} {sent : List Sent}
    (h : step env s (.start m (some a)) = some (t, .ok, sent)) (u : State) : ∃ ids, step env u .threads = some (u, .threads ids, []) ∧
      ids ≠ [] ∧ ∀ i, (.threadStarted i ∈ sent ↔ i ∈ ids) ∧ (.stopped i ∈ sent ↔ i ∈ ids) := by
  refine ⟨[1], rfl, by simp, fun i => ?_⟩
  simp only [step, launch] at h
  split at h
  · simp at h
  · split at h
    · simp at h
    · simp only [Option.some.injEq, Prod.mk.injEq] at h
      rw [← h.2.2]
      simp

/-- As sessions are never accepted, every thread terminates at once without compiling, whatever was tried before. -/
theorem never_begins (calls : List (Option Breakpoint.Session)) (new : Breakpoint.Session) (ev : Eval C R) (first : C)
    (cs : List C) (last : C) (rs : List Ask) :
    thread ev (Breakpoint.setSession (Breakpoint.sessions calls none) (some new)).1 first cs last rs = [.terminate] := rfl

/-! ## Cases -/

def demo : Env where
  entry _ p := some p
  eval f m _ _ e := (f m).map fun t => (e ++ " in " ++ t, "str")

/-- A launched program is evaluated as it was launched. -/
example : ∃ s, run demo ⟨fun n => if n = "a" then some "x" else none, none⟩
    [.start .launch (some ⟨"a", "/", none⟩), .edit "a" (some "y"), .threads, .terminateThreads (some [2])] = some s ∧
    (step demo s (.evaluate "1")).map (·.2.1) = some (.value "1 in x" "str") := ⟨_, rfl, rfl⟩

example : Debugs demo (fun n => if n = "a" then some "x" else none)
    [.start .launch (some ⟨"a", "/", none⟩), .edit "a" (some "y")] (fun n => if n = "a" then some "x" else none) "a" "x" := by
  refine ⟨[], _, [.edit "a" (some "y")], rfl, rfl, ⟨.launch, ⟨"a", "/", none⟩, rfl, rfl, rfl⟩, ?_⟩
  intro p q rest e
  cases p with
  | cons _ p => cases p <;> cases e
  | nil =>
    cases e
    refine ⟨?_, ?_⟩
    · rintro (h | h | ⟨_, h, _⟩) <;> cases h
    · rintro _ _ ⟨_, _, h, _⟩
      cases h

example : answers (thread (fun c e => some (c, e)) true 0 [1, 2] 3
    [.evaluate 7 "a", .goOn, .goOn, .evaluate 8 "b", .evaluate 9 "c", .goOn, .evaluate 10 "d", .goOn, .evaluate 11 "e"]) =
    [(7, 0, "a"), (8, 2, "b"), (9, 2, "c"), (10, 3, "d")] := by decide

end Tinymist.Debugging
