import Verif.Model.Waiting
/-!
# Analyses made at the same time (C177)
-/

namespace Tinymist.Waiting

variable {imports : Fid → List Fid} {rank : Fid → Nat}

/-! ## What is asked for -/

/-- No file imports itself, directly or not. -/
def Ranked (imports : Fid → List Fid) (rank : Fid → Nat) : Prop := ∀ f, ∀ g ∈ imports f, rank g < rank f

/-- All threads are finished. -/
def Finished (st : St) : Prop := ∀ stack ∈ st.threads, stack = []

/-- No thread can do anything. -/
def Stuck (imports : Fid → List Fid) (st : St) : Prop := ∀ i, step imports st i = none

/-- The steps are possible, one after the other. -/
inductive Runs (imports : Fid → List Fid) : St → List Nat → St → Prop where
  | nil (st) : Runs imports st [] st
  | cons (st i st' is st'') (h : step imports st i = some st') (hs : Runs imports st' is st'') : Runs imports st (i :: is) st''

/-! ## The threads -/

/-- The frames of a thread: each looks at imports of its file, and was begun by the one below. -/
def Deep (rank : Fid → Nat) : List Frame → Prop
  | [] => True
  | x :: below => (∀ f, x.fid = some f → (∀ g ∈ x.rest, rank g < rank f) ∧ ∀ y ∈ below, ∀ k, y.fid = some k → rank f < rank k) ∧
      (x.fid = none → below = []) ∧ Deep rank below

/-- What is being analysed is analysed by a thread. -/
structure Inv (rank : Fid → Nat) (st : St) : Prop where
  deep : ∀ stack ∈ st.threads, Deep rank stack
  busy : ∀ g, st.status g = .busy → ∃ stack ∈ st.threads, onRoute g stack = true

theorem onRoute_iff {g : Fid} {stack : List Frame} : onRoute g stack = true ↔ ∃ x ∈ stack, x.fid = some g := by
  simp [onRoute]

theorem inv_init (asks : List (List Fid)) : Inv rank (init asks) := by
  refine ⟨?_, fun g h => by cases h⟩
  intro stack hs
  obtain ⟨fs, _, rfl⟩ := List.mem_map.mp hs
  exact ⟨fun f h => (by cases h), fun _ => rfl, trivial⟩

theorem step_some {st st' : St} {i : Nat} (h : step imports st i = some st') : ∃ stack r, st.threads[i]? = some stack ∧
    advance imports st.status stack = some r ∧ st' = ⟨st.threads.set i r.1, r.2⟩ := by
  unfold step at h
  cases ht : st.threads[i]? with
  | none => rw [ht] at h; cases h
  | some stack =>
    rw [ht] at h
    obtain ⟨r, hr, h⟩ := Option.map_eq_some_iff.mp h
    exact ⟨stack, r, rfl, hr, h.symm⟩

theorem mem_set_self {α : Type} {l : List α} {i : Nat} {a x : α} (h : l[i]? = some a) : x ∈ l.set i x := by
  have hi : i < l.length := by
    rw [List.getElem?_eq_some_iff] at h
    exact h.1
  have := List.getElem?_set_self (l := l) (i := i) (a := x) hi
  exact List.mem_of_getElem? this

theorem mem_set_other {α : Type} {l : List α} {i j : Nat} {b x : α} (h : l[j]? = some b) (hne : j ≠ i) : b ∈ l.set i x := by
  have := List.getElem?_set_ne (l := l) (i := i) (j := j) (a := x) (Ne.symm hne)
  exact List.mem_of_getElem? (this.trans h)

theorem advance_cases {status : Fid → Status} {stack : List Frame} {r : List Frame × (Fid → Status)} (h : advance imports status stack = some r) :
    (∃ below, stack = ⟨none, []⟩ :: below ∧ r = (below, status)) ∨
    (∃ f below, stack = ⟨some f, []⟩ :: below ∧ r = (below, set status f .done)) ∨
    (∃ fid g gs below, stack = ⟨fid, g :: gs⟩ :: below ∧ (onRoute g stack = true ∨ status g = .done) ∧ r = (⟨fid, gs⟩ :: below, status)) ∨
    (∃ fid g gs below, stack = ⟨fid, g :: gs⟩ :: below ∧ onRoute g stack = false ∧ status g = .todo ∧
      r = (⟨some g, imports g⟩ :: ⟨fid, gs⟩ :: below, set status g .busy)) := by
  unfold advance at h
  split at h
  · cases h
  · rename_i below
    cases h
    exact .inl ⟨below, rfl, rfl⟩
  · rename_i f below
    cases h
    exact .inr (.inl ⟨f, below, rfl, rfl⟩)
  · rename_i fid g gs below
    split at h
    · rename_i hr
      cases h
      exact .inr (.inr (.inl ⟨fid, g, gs, below, rfl, .inl hr, rfl⟩))
    · rename_i hr
      split at h
      · rename_i hd
        cases h
        exact .inr (.inr (.inl ⟨fid, g, gs, below, rfl, .inr hd, rfl⟩))
      · cases h
      · rename_i hd
        cases h
        exact .inr (.inr (.inr ⟨fid, g, gs, below, rfl, by simpa using hr, hd, rfl⟩))

theorem deep_ranks : ∀ {stack : List Frame}, Deep rank stack → ∀ {x below}, stack = x :: below → ∀ f, x.fid = some f →
    ∀ y ∈ stack, ∀ k, y.fid = some k → rank f ≤ rank k := by
  intro stack h x below he f hf y hy k hk
  subst he
  rcases List.mem_cons.mp hy with rfl | hy
  · rw [hf] at hk
    cases hk
    exact Nat.le_refl _
  · exact Nat.le_of_lt ((h.1 f hf).2 y hy k hk)

theorem inv_step (hr : Ranked imports rank) {st st' : St} {i : Nat} (h : Inv rank st) (hs : step imports st i = some st') : Inv rank st' := by
  obtain ⟨stack, r, ht, ha, rfl⟩ := step_some hs
  have hd := h.deep stack (List.mem_of_getElem? ht)
  -- other threads go on as before
  have other : ∀ g, (onRoute g stack = true → onRoute g r.1 = true) → st.status g = .busy → ∃ s ∈ st.threads.set i r.1, onRoute g s = true := by
    intro g hg hb
    obtain ⟨s, hs, ho⟩ := h.busy g hb
    obtain ⟨j, hj⟩ := List.mem_iff_getElem?.mp hs
    by_cases hji : j = i
    · subst hji
      rw [ht] at hj
      cases hj
      exact ⟨r.1, mem_set_self ht, hg ho⟩
    · exact ⟨s, mem_set_other hj hji, ho⟩
  have deep : Deep rank r.1 → ∀ s ∈ st.threads.set i r.1, Deep rank s := by
    intro hx s hs
    rcases List.mem_or_eq_of_mem_set hs with hs | rfl
    · exact h.deep s hs
    · exact hx
  rcases advance_cases ha with ⟨below, rfl, rfl⟩ | ⟨f, below, rfl, rfl⟩ | ⟨fid, g, gs, below, rfl, _, rfl⟩ | ⟨fid, g, gs, below, rfl, hno, hst, rfl⟩
  · refine ⟨deep hd.2.2, fun g hb => other g ?_ hb⟩
    intro ho
    simpa [onRoute] using ho
  · refine ⟨deep hd.2.2, ?_⟩
    intro g hb
    simp only [set] at hb
    split at hb
    · cases hb
    · rename_i hne
      refine other g ?_ hb
      intro ho
      simp only [onRoute, List.any_cons, Bool.or_eq_true, decide_eq_true_eq, Option.some.injEq] at ho ⊢
      rcases ho with e | ho
      · exact absurd e.symm hne
      · exact ho
  · refine ⟨deep ⟨?_, hd.2.1, hd.2.2⟩, fun k hb => other k ?_ hb⟩
    · intro f hf
      exact ⟨fun x hx => (hd.1 f hf).1 x (List.mem_cons_of_mem _ hx), (hd.1 f hf).2⟩
    · intro ho
      simpa [onRoute] using ho
  · refine ⟨deep ⟨?_, fun h => (by cases h), ⟨?_, hd.2.1, hd.2.2⟩⟩, ?_⟩
    · intro f hf
      cases hf
      refine ⟨hr g, ?_⟩
      intro y hy k hk
      rcases List.mem_cons.mp hy with rfl | hb
      · exact (hd.1 k hk).1 g (List.mem_cons_self ..)
      · cases fid with
        | none =>
          rw [hd.2.1 rfl] at hb
          cases hb
        | some f0 =>
          exact Nat.lt_trans ((hd.1 f0 rfl).1 g (List.mem_cons_self ..)) ((hd.1 f0 rfl).2 y hb k hk)
    · intro f hf
      exact ⟨fun x hx => (hd.1 f hf).1 x (List.mem_cons_of_mem _ hx), (hd.1 f hf).2⟩
    · intro k hb
      simp only [set] at hb
      split at hb
      · rename_i e
        subst e
        exact ⟨_, mem_set_self ht, by simp [onRoute]⟩
      · refine other k ?_ hb
        intro ho
        simp only [onRoute, List.any_cons, Bool.or_eq_true] at ho ⊢
        exact .inr ho

theorem inv_runs (hr : Ranked imports rank) {st st' : St} {is : List Nat} (hs : Runs imports st is st') (h : Inv rank st) : Inv rank st' := by
  induction hs with
  | nil => exact h
  | cons st i st' is st'' hx _ ih => exact ih (inv_step hr h hx)

/-- A thread that is not finished and cannot go on waits for a file that another is analysing. -/
theorem waits {status : Fid → Status} {x : Frame} {below : List Frame} (h : advance imports status (x :: below) = none) :
    ∃ g gs, x.rest = g :: gs ∧ status g = .busy ∧ onRoute g (x :: below) = false := by
  obtain ⟨fid, rest⟩ := x
  cases rest with
  | nil => cases fid <;> cases h
  | cons g gs =>
    simp only [advance] at h
    split at h
    · cases h
    · rename_i hr
      split at h
      · cases h
      · rename_i hb
        exact ⟨g, gs, rfl, hb, by simpa using hr⟩
      · cases h

theorem deadlock_free {st : St} (h : Inv rank st) (hs : Stuck imports st) : ∀ n, ∀ stack ∈ st.threads, ∀ x below g gs, stack = x :: below →
    x.rest = g :: gs → rank g ≤ n → False := by
  intro n
  induction n with
  | zero =>
    intro stack hm x below g gs he hg hn
    subst he
    obtain ⟨i, hi⟩ := List.mem_iff_getElem?.mp hm
    have ha : advance imports st.status (x :: below) = none := by
      have := hs i
      unfold step at this
      rw [hi] at this
      exact Option.map_eq_none_iff.mp this
    obtain ⟨g', gs', hg', hb, _⟩ := waits ha
    rw [hg] at hg'
    cases hg'
    obtain ⟨s2, hm2, ho⟩ := h.busy g hb
    obtain ⟨y, hy, hyg⟩ := onRoute_iff.mp ho
    cases s2 with
    | nil => cases hy
    | cons z below2 =>
      obtain ⟨j, hj⟩ := List.mem_iff_getElem?.mp hm2
      have ha2 : advance imports st.status (z :: below2) = none := by
        have := hs j
        unfold step at this
        rw [hj] at this
        exact Option.map_eq_none_iff.mp this
      obtain ⟨g2, gs2, hg2, _, _⟩ := waits ha2
      have hd := h.deep _ hm2
      cases hz : z.fid with
      | none =>
        have := hd.2.1 hz
        subst this
        rcases List.mem_singleton.mp hy with rfl
        rw [hz] at hyg
        cases hyg
      | some k =>
        have h1 := deep_ranks hd rfl k hz y hy g hyg
        have h2 := (hd.1 k hz).1 g2 (by rw [hg2]; exact List.mem_cons_self ..)
        omega
  | succ n ih =>
    intro stack hm x below g gs he hg hn
    subst he
    obtain ⟨i, hi⟩ := List.mem_iff_getElem?.mp hm
    have ha : advance imports st.status (x :: below) = none := by
      have := hs i
      unfold step at this
      rw [hi] at this
      exact Option.map_eq_none_iff.mp this
    obtain ⟨g', gs', hg', hb, _⟩ := waits ha
    rw [hg] at hg'
    cases hg'
    obtain ⟨s2, hm2, ho⟩ := h.busy g hb
    obtain ⟨y, hy, hyg⟩ := onRoute_iff.mp ho
    cases s2 with
    | nil => cases hy
    | cons z below2 =>
      obtain ⟨j, hj⟩ := List.mem_iff_getElem?.mp hm2
      have ha2 : advance imports st.status (z :: below2) = none := by
        have := hs j
        unfold step at this
        rw [hj] at this
        exact Option.map_eq_none_iff.mp this
      obtain ⟨g2, gs2, hg2, _, _⟩ := waits ha2
      have hd := h.deep _ hm2
      cases hz : z.fid with
      | none =>
        have := hd.2.1 hz
        subst this
        rcases List.mem_singleton.mp hy with rfl
        rw [hz] at hyg
        cases hyg
      | some k =>
        have h1 := deep_ranks hd rfl k hz y hy g hyg
        have h2 := (hd.1 k hz).1 g2 (by rw [hg2]; exact List.mem_cons_self ..)
        exact ih _ hm2 z below2 g2 gs2 rfl hg2 (by omega)

/-- **C177.** Threads that analyse files that do not import each other in a circle never wait for each other for ever: in whatever order they
run, if none can go on, all are finished.
Missing: files that import each other in a circle, for which threads may wait for ever. -/
theorem never_stuck_partial (hr : Ranked imports rank) {asks : List (List Fid)} {is : List Nat} {st : St} (h : Runs imports (init asks) is st)
    (hs : Stuck imports st) : Finished st := by
  have inv := inv_runs hr h (inv_init asks)
  intro stack hm
  cases stack with
  | nil => rfl
  | cons x below =>
    obtain ⟨i, hi⟩ := List.mem_iff_getElem?.mp hm
    have ha : advance imports st.status (x :: below) = none := by
      have := hs i
      unfold step at this
      rw [hi] at this
      exact Option.map_eq_none_iff.mp this
    obtain ⟨g, gs, hg, _, _⟩ := waits ha
    exact absurd (deadlock_free inv hs (rank g) _ hm x below g gs rfl hg (Nat.le_refl _)) id

/-! ## It ends -/

/-- The steps that the analysis of a file takes at most, with a bound on the depth. -/
def cost (imports : Fid → List Fid) : Nat → Fid → Nat
  | 0, _ => 0
  | n + 1, f => 2 + ((imports f).map (cost imports n)).sum

theorem cost_stable (hr : Ranked imports rank) : ∀ n f k, rank f < n → n ≤ k → cost imports k f = cost imports n f := by
  intro n
  induction n with
  | zero => intro f k h; omega
  | succ n ih =>
    intro f k h hk
    cases k with
    | zero => omega
    | succ k =>
      unfold cost
      have : (imports f).map (cost imports k) = (imports f).map (cost imports n) := by
        apply List.map_congr_left
        intro g hg
        exact ih g k (by have := hr f g hg; omega) (by omega)
      rw [this]

/-- The same without a bound. -/
def total (imports : Fid → List Fid) (rank : Fid → Nat) (f : Fid) : Nat := cost imports (rank f + 1) f

theorem total_eq (hr : Ranked imports rank) (f : Fid) : total imports rank f = 2 + ((imports f).map (total imports rank)).sum := by
  have : (imports f).map (cost imports (rank f)) = (imports f).map (total imports rank) := by
    apply List.map_congr_left
    intro g hg
    have := hr f g hg
    exact cost_stable hr (rank g + 1) g (rank f) (by omega) (by omega)
  rw [← this]
  rfl

/-- What a thread has to do at most. -/
def left (imports : Fid → List Fid) (rank : Fid → Nat) (stack : List Frame) : Nat :=
  (stack.map fun x => 1 + (x.rest.map (total imports rank)).sum).sum

/-- What all threads have to do at most. -/
def allLeft (imports : Fid → List Fid) (rank : Fid → Nat) (st : St) : Nat := (st.threads.map (left imports rank)).sum

theorem sum_set {α : Type} (f : α → Nat) : ∀ {l : List α} {i : Nat} {a b : α}, l[i]? = some a → f b < f a → ((l.set i b).map f).sum < (l.map f).sum
  | [], _, _, _, h, _ => by cases h
  | x :: l, 0, a, b, h, hf => by
    cases h
    simp only [List.set_cons_zero, List.map_cons, List.sum_cons]
    omega
  | x :: l, i + 1, a, b, h, hf => by
    have := sum_set f (l := l) (i := i) (by simpa using h) hf
    simp only [List.set_cons_succ, List.map_cons, List.sum_cons]
    omega

theorem step_less (hr : Ranked imports rank) {st st' : St} {i : Nat} (hs : step imports st i = some st') :
    allLeft imports rank st' < allLeft imports rank st := by
  obtain ⟨stack, r, ht, ha, rfl⟩ := step_some hs
  refine sum_set _ ht ?_
  rcases advance_cases ha with ⟨below, rfl, rfl⟩ | ⟨f, below, rfl, rfl⟩ | ⟨fid, g, gs, below, rfl, _, rfl⟩ | ⟨fid, g, gs, below, rfl, hno, hst, rfl⟩
  · simp only [left, List.map_cons, List.sum_cons, List.map_nil, List.sum_nil]
    omega
  · simp only [left, List.map_cons, List.sum_cons, List.map_nil, List.sum_nil]
    omega
  · have := total_eq hr g
    simp only [left, List.map_cons, List.sum_cons]
    omega
  · have := total_eq hr g
    simp only [left, List.map_cons, List.sum_cons]
    omega

/-- **C177.** In whatever order the threads run, they run out of steps: there is a bound that holds for every order. -/
theorem ends (hr : Ranked imports rank) (asks : List (List Fid)) {is : List Nat} {st : St} (h : Runs imports (init asks) is st) :
    is.length ≤ allLeft imports rank (init asks) := by
  have key : ∀ {st0 : St} {is : List Nat} {st : St}, Runs imports st0 is st → is.length + allLeft imports rank st ≤ allLeft imports rank st0 := by
    intro st0 is st h
    induction h with
    | nil => simp
    | cons st i st' is st'' hx _ ih =>
      have := step_less hr hx
      simp only [List.length_cons]
      omega
  have := key h
  omega

/-! ## What was asked for is there -/

/-- A file that a thread was asked for is still to be looked at, being analysed or done. -/
def Cared (st : St) (i : Nat) (f : Fid) : Prop :=
  st.status f = .done ∨ ∃ stack, st.threads[i]? = some stack ∧ (onRoute f stack = true ∨ ∃ x ∈ stack, x.fid = none ∧ f ∈ x.rest)

theorem done_stays {st st' : St} {i : Nat} (hs : step imports st i = some st') {f : Fid} (h : st.status f = .done) : st'.status f = .done := by
  obtain ⟨stack, r, ht, ha, rfl⟩ := step_some hs
  rcases advance_cases ha with ⟨below, rfl, rfl⟩ | ⟨k, below, rfl, rfl⟩ | ⟨fid, g, gs, below, rfl, _, rfl⟩ | ⟨fid, g, gs, below, rfl, hno, hst, rfl⟩
  · exact h
  · simp only [set]
    split
    · rfl
    · exact h
  · exact h
  · simp only [set]
    split
    · rename_i e
      subst e
      rw [h] at hst
      cases hst
    · exact h

theorem cared_step {rank : Fid → Nat} {st st' : St} {j : Nat} (hi : Inv rank st) (hs : step imports st j = some st') {i : Nat} {f : Fid} (h : Cared st i f) :
    Cared st' i f := by
  rcases h with h | ⟨stack, ht, h⟩
  · exact .inl (done_stays hs h)
  · by_cases hji : j = i
    · subst hji
      obtain ⟨stack', r, ht', ha, rfl⟩ := step_some hs
      rw [ht] at ht'
      cases ht'
      have hlen : j < st.threads.length := (List.getElem?_eq_some_iff.mp ht).1
      have hget : (st.threads.set j r.1)[j]? = some r.1 := List.getElem?_set_self hlen
      have hd := hi.deep stack (List.mem_of_getElem? ht)
      rcases advance_cases ha with ⟨below, rfl, rfl⟩ | ⟨k, below, rfl, rfl⟩ | ⟨fid, g, gs, below, rfl, hg, rfl⟩ | ⟨fid, g, gs, below, rfl, hno, hst, rfl⟩
      · refine .inr ⟨_, hget, ?_⟩
        rcases h with h | ⟨x, hx, hn, hf⟩
        · left
          simpa [onRoute] using h
        · rcases List.mem_cons.mp hx with rfl | hx
          · cases hf
          · exact .inr ⟨x, hx, hn, hf⟩
      · rcases h with h | ⟨x, hx, hn, hf⟩
        · simp only [onRoute, List.any_cons, Bool.or_eq_true, decide_eq_true_eq, Option.some.injEq] at h
          rcases h with rfl | h
          · left
            simp [set]
          · exact .inr ⟨_, hget, .inl h⟩
        · rcases List.mem_cons.mp hx with rfl | hx
          · cases hf
          · exact .inr ⟨_, hget, .inr ⟨x, hx, hn, hf⟩⟩
      · rcases h with h | ⟨x, hx, hn, hf⟩
        · refine .inr ⟨_, hget, .inl ?_⟩
          simpa [onRoute] using h
        · rcases List.mem_cons.mp hx with rfl | hx
          · rcases List.mem_cons.mp hf with rfl | hf
            · rcases hg with hg | hg
              · refine .inr ⟨_, hget, .inl ?_⟩
                simpa [onRoute] using hg
              · exact .inl hg
            · exact .inr ⟨_, hget, .inr ⟨_, List.mem_cons_self .., hn, hf⟩⟩
          · exact .inr ⟨_, hget, .inr ⟨x, List.mem_cons_of_mem _ hx, hn, hf⟩⟩
      · refine .inr ⟨_, hget, ?_⟩
        rcases h with h | ⟨x, hx, hn, hf⟩
        · left
          simp only [onRoute, List.any_cons, Bool.or_eq_true] at h ⊢
          exact .inr h
        · rcases List.mem_cons.mp hx with rfl | hx
          · rcases List.mem_cons.mp hf with rfl | hf
            · left
              simp [onRoute]
            · exact .inr ⟨⟨_, gs⟩, List.mem_cons_of_mem _ (List.mem_cons_self ..), hn, hf⟩
          · exact .inr ⟨x, List.mem_cons_of_mem _ (List.mem_cons_of_mem _ hx), hn, hf⟩
    · obtain ⟨stack', r, ht', ha, rfl⟩ := step_some hs
      refine .inr ⟨stack, ?_, h⟩
      rw [← ht]
      exact List.getElem?_set_ne hji

/-- **C177.** When the threads are finished, every file asked for is analysed. -/
theorem all_done (hr : Ranked imports rank) {asks : List (List Fid)} {is : List Nat} {st : St} (h : Runs imports (init asks) is st) (hf : Finished st)
    {i : Nat} {fs : List Fid} (ha : asks[i]? = some fs) {f : Fid} (hm : f ∈ fs) : st.status f = .done := by
  have key : ∀ {st0 : St} {is : List Nat} {st : St}, Runs imports st0 is st → Inv rank st0 → Cared st0 i f → Cared st i f := by
    intro st0 is st h
    induction h with
    | nil => exact fun _ h => h
    | cons st j st' is st'' hx _ ih => exact fun hi hc => ih (inv_step hr hi hx) (cared_step hi hx hc)
  have h0 : Cared (init asks) i f := by
    refine .inr ⟨[⟨none, fs⟩], ?_, .inr ⟨_, List.mem_singleton.mpr rfl, rfl, hm⟩⟩
    simp [init, ha]
  rcases key h (inv_init asks) h0 with h1 | ⟨stack, hs, h1⟩
  · exact h1
  · rw [hf stack (List.mem_of_getElem? hs)] at h1
    rcases h1 with h1 | ⟨x, hx, _⟩
    · cases h1
    · cases hx

/-- **C177.** A single thread never waits, even if files import each other in a circle. -/
theorem one_thread {asks : List Fid} {is : List Nat} {st : St} (h : Runs imports (init [asks]) is st) (hs : Stuck imports st) : Finished st := by
  have key : ∀ {st0 : St} {is : List Nat} {st : St}, Runs imports st0 is st →
      (∃ stack, st0.threads = [stack] ∧ ∀ g, st0.status g = .busy → onRoute g stack = true) →
      ∃ stack, st.threads = [stack] ∧ ∀ g, st.status g = .busy → onRoute g stack = true := by
    intro st0 is st h
    induction h with
    | nil => exact id
    | cons st i st' is st'' hx _ ih =>
      rintro ⟨stack, ht, hb⟩
      refine ih ?_
      obtain ⟨stack', r, hi, ha, rfl⟩ := step_some hx
      rw [ht] at hi
      have h0 : i = 0 := by
        cases i with
        | zero => rfl
        | succ i => simp at hi
      subst h0
      have : stack = stack' := by simpa using hi
      subst this
      refine ⟨r.1, by rw [ht]; rfl, ?_⟩
      rcases advance_cases ha with ⟨below, rfl, rfl⟩ | ⟨k, below, rfl, rfl⟩ | ⟨fid, g, gs, below, rfl, hg, rfl⟩ | ⟨fid, g, gs, below, rfl, hno, hst, rfl⟩
      · intro g hg
        simpa [onRoute] using hb g hg
      · intro g hg
        simp only [set] at hg
        split at hg
        · cases hg
        · rename_i hne
          have := hb g hg
          simp only [onRoute, List.any_cons, Bool.or_eq_true, decide_eq_true_eq, Option.some.injEq] at this ⊢
          rcases this with e | h
          · exact absurd e.symm hne
          · exact h
      · intro g hg
        simpa [onRoute] using hb g hg
      · intro k hk
        simp only [set] at hk
        split at hk
        · rename_i e
          subst e
          simp [onRoute]
        · have := hb k hk
          simp only [onRoute, List.any_cons, Bool.or_eq_true] at this ⊢
          exact .inr this
  obtain ⟨stack, ht, hb⟩ := key h ⟨[⟨none, asks⟩], rfl, fun g hg => by cases hg⟩
  intro s hm
  rw [ht, List.mem_singleton] at hm
  subst hm
  cases s with
  | nil => rfl
  | cons x below =>
    have ha : advance imports st.status (x :: below) = none := by
      have := hs 0
      unfold step at this
      rw [ht] at this
      exact Option.map_eq_none_iff.mp this
    obtain ⟨g, gs, _, h1, h2⟩ := waits ha
    rw [hb g h1] at h2
    cases h2

/-- **C177, violated.** If two files import each other first, a thread that is asked for one and a thread that is asked for the other can come to
wait for each other, and then wait for ever. -/
theorem deadlock (a b : Fid) (hab : a ≠ b) (ra rb : List Fid) (ha : imports a = b :: ra) (hb : imports b = a :: rb) :
    ∃ is st, Runs imports (init [[a], [b]]) is st ∧ ¬Finished st ∧ Stuck imports st := by
  have hba : b ≠ a := Ne.symm hab
  refine ⟨[0, 1], ⟨[[⟨some a, b :: ra⟩, ⟨none, []⟩], [⟨some b, a :: rb⟩, ⟨none, []⟩]], set (set (fun _ => .todo) a .busy) b .busy⟩, ?_, ?_, ?_⟩
  · refine .cons _ 0 (⟨[[⟨some a, b :: ra⟩, ⟨none, []⟩], [⟨none, [b]⟩]], set (fun _ => .todo) a .busy⟩) _ _ ?_ (.cons _ 1 _ _ _ ?_ (.nil _))
    · simp [step, init, advance, onRoute, ha]
    · simp [step, advance, onRoute, hb, set, hba]
  · intro h
    have := h _ (List.mem_cons_self ..)
    cases this
  · intro i
    cases i with
    | zero => simp [step, advance, onRoute, set, hab]
    | succ i =>
      cases i with
      | zero => simp [step, advance, onRoute, set, hab, hba]
      | succ i => simp [step]

/-! ## Examples -/

/-- File 1 imports 2 and 3, file 2 imports 3. -/
def three : Fid → List Fid := fun f => if f = 1 then [2, 3] else if f = 2 then [3] else []

example : Ranked three (fun f => if f = 1 then 2 else if f = 2 then 1 else 0) := by
  intro f g hg
  unfold three at hg
  split at hg
  · rename_i h
    simp at hg
    rcases hg with rfl | rfl <;> simp [h]
  · split at hg
    · rename_i h1 h
      simp at hg
      simp [h, hg]
    · cases hg

example : (run three (init [[1], [2]]) [0, 1, 0, 0, 1, 1, 0, 1, 0, 1, 1, 0, 0, 0, 0, 0, 0, 0]).threads = [[], []] := by decide +kernel

end Tinymist.Waiting
