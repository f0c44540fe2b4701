import Verif.Spec.SnapshotMap
/-!
# C27: rolling back and committing
-/
namespace Tinymist.SnapshotMap
variable {K V : Type} [DecidableEq K]

theorem rollbackLoop_append (n : Nat) (pre log : List (Undo K V)) (h : log.length = n) (m : Map K V) :
    rollbackLoop n (pre ++ log) m = (log, pre.foldl reverse m) := by
  induction pre generalizing m with
  | nil =>
    cases log with
    | nil => rfl
    | cons u log =>
      rw [List.nil_append, rollbackLoop, if_neg (by omega)]; rfl
  | cons u pre ih =>
    rw [List.cons_append, rollbackLoop, if_pos, ih]
    · rfl
    · simp; omega

/-- The log read from the newest entry on leads back through the saved maps. -/
def Back (m : Map K V) : List (Undo K V) → List (Nat × Map K V) → Prop
  | _, [] => True
  | log, (n, m') :: rest => ∃ pre log', log = pre ++ log' ∧ log'.length = n ∧ pre.foldl reverse m = m' ∧ Back m' log' rest

structure Inv (s : Sys K V) (c : Copies K V) : Prop where
  map : s.state.map = c.map
  len : s.held.length = c.saved.length
  back : Back s.state.map s.state.log (s.held.zip c.saved)
  opened : s.held.length ≤ s.state.opened
  /-- Without given up snapshots, the oldest one is at the start of the log. -/
  base : s.held.length = s.state.opened → (s.held = [] → s.state.log = []) ∧ ∀ n, s.held.getLast? = some n → n = 0

theorem set_same (m : Map K V) (k : K) : m.set k (m k) = m := by
  funext x; rw [Map.set]; split
  · rename_i h; rw [h]
  · rfl

theorem set_set (m : Map K V) (k : K) (a b : Option V) : (m.set k a).set k b = m.set k b := by
  funext x; simp only [Map.set]; split <;> rfl

theorem back_push {m m' : Map K V} {log : List (Undo K V)} {u : Undo K V} (h : reverse m' u = m)
    {l : List (Nat × Map K V)} (hb : Back m log l) : Back m' (u :: log) l := by
  cases l with
  | nil => trivial
  | cons x l =>
    obtain ⟨n, m''⟩ := x
    obtain ⟨pre, log', e, hl, hm, hb⟩ := hb
    exact ⟨u :: pre, log', by rw [e]; rfl, hl, by rw [List.foldl_cons, h, hm], hb⟩

theorem back_nil {m m' : Map K V} {log log' : List (Undo K V)} : Back m log [] → Back m' log' [] := id

/-- Logging a change that can be undone. -/
theorem inv_push {s : Sys K V} {c : Copies K V} (h : Inv s c) (m : Map K V) (u : Undo K V)
    (hu : reverse m u = s.state.map) :
    Inv ⟨({ s.state with map := m } : State K V).push u, s.held⟩ ⟨m, c.saved⟩ := by
  obtain ⟨h1, h2, h3, h4, h5⟩ := h
  rw [State.push]
  by_cases ho : s.state.opened > 0
  · rw [if_pos ho]
    refine ⟨rfl, h2, back_push hu h3, h4, ?_⟩
    intro he
    refine ⟨fun hn => ?_, (h5 he).2⟩
    rw [hn] at he
    simp only [List.length_nil] at he
    omega
  · rw [if_neg ho]
    have hn : s.held = [] := List.length_eq_zero_iff.mp (by omega)
    refine ⟨rfl, h2, ?_, h4, h5⟩
    simp only [hn, List.zip_nil_left]
    trivial

theorem back_drop {m : Map K V} {log : List (Undo K V)} {l : List (Nat × Map K V)} (h : Back m log l) {i n : Nat}
    {m' : Map K V} (hi : l[i]? = some (n, m')) :
    ∃ pre log', log = pre ++ log' ∧ log'.length = n ∧ pre.foldl reverse m = m' ∧ Back m' log' (l.drop (i + 1)) := by
  induction i generalizing m log l with
  | zero =>
    cases l with
    | nil => cases hi
    | cons x l => cases hi; exact h
  | succ i ih =>
    cases l with
    | nil => cases hi
    | cons x l =>
      obtain ⟨k, mk⟩ := x
      obtain ⟨pre, log', e, hl, hm, hb⟩ := h
      obtain ⟨pre2, log2, e2, hl2, hm2, hb2⟩ := ih hb hi
      exact ⟨pre ++ pre2, log2, by rw [e, e2, List.append_assoc], hl2, by rw [List.foldl_append, hm, hm2], hb2⟩

/-- The older snapshots can be reached from the present as well. -/
theorem back_skip {m : Map K V} {log : List (Undo K V)} {l : List (Nat × Map K V)} (h : Back m log l) (i : Nat) :
    Back m log (l.drop i) := by
  cases hd : l.drop i with
  | nil => trivial
  | cons x rest =>
    have hi : l[i]? = some x := by
      have := List.head?_drop (l := l) (i := i)
      rw [hd] at this
      exact this.symm
    have hr : l.drop (i + 1) = rest := by rw [← List.tail_drop, hd]; rfl
    obtain ⟨n, m'⟩ := x
    have := back_drop h hi
    rw [hr] at this
    exact this

theorem drop_zip {α β : Type} (a : List α) (b : List β) (n : Nat) : (a.zip b).drop n = (a.drop n).zip (b.drop n) := by
  simp [List.drop_zipWith, List.zip]

theorem getLast?_drop_some {α : Type} {l : List α} {n : Nat} {x : α} (h : (l.drop n).getLast? = some x) :
    l.getLast? = some x := by
  rw [List.getLast?_drop] at h
  split at h
  · cases h
  · exact h

theorem step_refines {s : Sys K V} {c c' : Copies K V} {b : Bool} (h : Inv s c) (op : Op K V)
    (hc : c.step op = some (c', b)) : ∃ s', s.step op = some (s', b) ∧ Inv s' c' := by
  cases op with
  | insert k v =>
    injection hc with hc
    injection hc with e1 e2
    subst e1; subst e2
    rw [Sys.step, State.insert, ← h.map]
    cases hk : s.state.map k with
    | none =>
      refine ⟨_, rfl, inv_push h (s.state.map.set k (some v)) _ ?_⟩
      rw [reverse, set_set, ← hk, set_same]
    | some old =>
      refine ⟨_, rfl, inv_push h (s.state.map.set k (some v)) _ ?_⟩
      rw [reverse, set_set, ← hk, set_same]
  | remove k =>
    injection hc with hc
    injection hc with e1 e2
    subst e1; subst e2
    rw [Sys.step, State.remove, ← h.map]
    cases hk : s.state.map k with
    | none =>
      refine ⟨_, rfl, ?_⟩
      have : (fun x => if x = k then none else s.state.map x) = s.state.map := by
        rw [← hk]; exact set_same _ _
      rw [this, h.map]
      exact h
    | some old =>
      refine ⟨_, rfl, inv_push h (s.state.map.set k none) _ ?_⟩
      rw [reverse, set_set, ← hk, set_same]
  | clear =>
    injection hc with hc
    injection hc with e1 e2
    subst e1; subst e2
    exact ⟨_, rfl, ⟨rfl, rfl, trivial, Nat.le_refl _, fun _ => ⟨fun _ => rfl, fun n hn => by cases hn⟩⟩⟩
  | snapshot =>
    injection hc with hc
    injection hc with e1 e2
    subst e1; subst e2
    refine ⟨_, rfl, ⟨h.map, ?_, ?_, ?_, ?_⟩⟩
    · simp [h.len]
    · exact ⟨[], s.state.log, rfl, rfl, h.map, h.map ▸ h.back⟩
    · have := h.opened; simp [State.snapshot]; exact this
    · intro he
      have he' : s.held.length = s.state.opened := by simpa [State.snapshot] using he
      refine ⟨(by intro hn; cases hn), ?_⟩
      intro n hn
      cases hh : s.held with
      | nil =>
        rw [hh] at hn
        have hl := (h.base he').1 hh
        simp only [State.snapshot, hl, List.getLast?_singleton, List.length_nil, Option.some.injEq] at hn
        exact hn.symm
      | cons x xs =>
        refine (h.base he').2 n ?_
        rw [hh] at hn ⊢
        simpa [List.getLast?_cons_cons] using hn
  | rollback n =>
    obtain ⟨m, hm, e⟩ := Option.map_eq_some_iff.mp hc
    injection e with e1 e2
    subst e1; subst e2
    obtain ⟨u, hu⟩ : ∃ u, s.held[n]? = some u := by
      have hlt := (List.getElem?_eq_some_iff.mp hm).1
      exact ⟨_, List.getElem?_eq_getElem (by rw [h.len]; exact hlt)⟩
    have hz : (s.held.zip c.saved)[n]? = some (u, m) := by
      rw [List.getElem?_zip_eq_some]; exact ⟨hu, hm⟩
    obtain ⟨pre, log', e, hl, hr, hb⟩ := back_drop h.back hz
    have hne : 0 < s.held.length := by
      have := (List.getElem?_eq_some_iff.mp hu).1
      omega
    have hop := h.opened
    have hlen : u ≤ s.state.log.length := by rw [e, ← hl]; simp
    have hroll := rollbackLoop_append u pre log' hl s.state.map
    rw [← e, hr] at hroll
    refine ⟨_, by rw [Sys.step, hu, Option.bind_some, State.rollbackTo, if_pos ⟨hlen, by omega⟩, Option.map_some], ?_⟩
    rw [hroll]
    refine ⟨rfl, by simp [h.len], ?_, ?_, ?_⟩
    · rw [← drop_zip]; exact hb
    · simp; omega
    · intro he
      have hlt := (List.getElem?_eq_some_iff.mp hu).1
      have he' : s.held.length - (n + 1) = s.state.opened - 1 := by simpa using he
      have hn0 : n = 0 := by omega
      have hfull : s.held.length = s.state.opened := by omega
      refine ⟨?_, fun k hk => (h.base hfull).2 k (getLast?_drop_some hk)⟩
      intro hd
      subst hn0
      have : s.held = [u] := by
        cases hh : s.held with
        | nil => rw [hh] at hu; cases hu
        | cons x xs => rw [hh] at hu hd; cases hu; simp at hd; rw [hd]
      have := (h.base hfull).2 u (by rw [this]; rfl)
      exact List.length_eq_zero_iff.mp (by show log'.length = 0; omega)
  | commit n =>
    obtain ⟨m, hm, e⟩ := Option.map_eq_some_iff.mp hc
    injection e with e1 e2
    subst e1; subst e2
    obtain ⟨u, hu⟩ : ∃ u, s.held[n]? = some u := by
      have hlt := (List.getElem?_eq_some_iff.mp hm).1
      exact ⟨_, List.getElem?_eq_getElem (by rw [h.len]; exact hlt)⟩
    have hz : (s.held.zip c.saved)[n]? = some (u, m) := by
      rw [List.getElem?_zip_eq_some]; exact ⟨hu, hm⟩
    obtain ⟨pre, log', e, hl, hr, hb⟩ := back_drop h.back hz
    have hlt := (List.getElem?_eq_some_iff.mp hu).1
    have hop := h.opened
    have hlen : u ≤ s.state.log.length := by rw [e, ← hl]; simp
    by_cases h1 : s.state.opened = 1
    · have hfull : s.held.length = s.state.opened := by omega
      have hn0 : n = 0 := by omega
      subst hn0
      have hh : s.held = [u] := by
        cases hh : s.held with
        | nil => rw [hh] at hu; cases hu
        | cons x xs =>
          rw [hh] at hu hfull; cases hu
          have : xs = [] := List.length_eq_zero_iff.mp (by simp at hfull; omega)
          rw [this]
      have hu0 := (h.base hfull).2 u (by rw [hh]; rfl)
      refine ⟨_, by rw [Sys.step, hu, Option.bind_some, State.commit, if_pos ⟨hlen, by omega⟩, if_pos h1, if_pos hu0, Option.map_some], ?_⟩
      refine ⟨h.map, by simp [h.len], ?_, ?_, ?_⟩
      · simp [hh]; trivial
      · simp [hh]
      · intro _
        exact ⟨fun _ => rfl, fun k hk => by simp [hh] at hk⟩
    · refine ⟨_, by rw [Sys.step, hu, Option.bind_some, State.commit, if_pos ⟨hlen, by omega⟩, if_neg h1, Option.map_some], ?_⟩
      refine ⟨h.map, by simp [h.len], ?_, ?_, ?_⟩
      · rw [← drop_zip]; exact back_skip h.back _
      · simp; omega
      · intro he
        have he' : s.held.length - (n + 1) = s.state.opened - 1 := by simpa using he
        have hfull : s.held.length = s.state.opened := by omega
        refine ⟨?_, fun k hk => (h.base hfull).2 k (getLast?_drop_some hk)⟩
        intro hd
        have := congrArg List.length hd
        simp at this
        omega

theorem run_refines {s : Sys K V} {c c' : Copies K V} {bs : List Bool} (h : Inv s c) (ops : List (Op K V))
    (hc : c.run ops = some (c', bs)) : ∃ s', s.run ops = some (s', bs) ∧ Inv s' c' := by
  induction ops generalizing s c bs with
  | nil =>
    injection hc with hc
    injection hc with e1 e2
    subst e1; subst e2
    exact ⟨s, rfl, h⟩
  | cons op ops ih =>
    rw [Copies.run] at hc
    obtain ⟨⟨c1, b⟩, h1, h2⟩ := Option.bind_eq_some_iff.mp hc
    obtain ⟨⟨c2, bs'⟩, h3, h4⟩ := Option.map_eq_some_iff.mp h2
    injection h4 with e1 e2
    subst e1; subst e2
    obtain ⟨s1, hs1, hi⟩ := step_refines h op h1
    obtain ⟨s2, hs2, hi2⟩ := ih hi h3
    exact ⟨s2, by rw [Sys.run, hs1, Option.bind_some]; simp only [hs2]; rfl, hi2⟩

theorem inv_init : Inv (K := K) (V := V) ⟨.init, []⟩ ⟨fun _ => none, []⟩ :=
  ⟨rfl, rfl, trivial, Nat.le_refl _, fun _ => ⟨fun _ => rfl, fun _ h => by cases h⟩⟩

/-- **C27**: for every sequence of changes, snapshots, commits and rollbacks (also to snapshots further out, giving up
the inner ones), no assertion fails, and the bindings and answers are those of a map that keeps full copies. -/
theorem behaves_like_copies (ops : List (Op K V)) {c : Copies K V} {bs : List Bool}
    (h : Copies.run ⟨fun _ => none, []⟩ ops = some (c, bs)) :
    ∃ s, Sys.run ⟨.init, []⟩ ops = some (s, bs) ∧ s.state.map = c.map := by
  obtain ⟨s, h1, h2⟩ := run_refines inv_init ops h
  exact ⟨s, h1, h2.map⟩

example : ((Copies.run (K := Nat) (V := Nat) ⟨fun _ => none, []⟩
    [.insert 1 1, .snapshot, .insert 1 2, .snapshot, .remove 1, .commit 0, .insert 2 5, .rollback 0]).map
      fun (c, bs) => (c.map 1, c.map 2, c.saved.length, bs)) =
    some (some 1, none, 0, [true, false, false, false, true, false, true, false]) := by decide

/-- Committing an outer snapshot while the inner one is still to be used does end in a failed assertion. -/
theorem commit_out_of_order :
    ∀ s1 s2 : State Nat Nat, s1 = (State.init.snapshot.1.insert 0 0).1 → s1.snapshot.1.commit 0 = some s2 →
      s2.commit s1.snapshot.2 = none := by
  rintro s1 s2 rfl h
  injection h with h
  subst h
  rfl

/-- Snapshots are closed newest first. -/
def Nested : Op K V → Prop
  | .rollback n => n = 0
  | .commit n => n = 0
  | _ => True

theorem rollbackLoop_zero (log : List (Undo K V)) (m : Map K V) : (rollbackLoop 0 log m).1 = [] := by
  induction log generalizing m with
  | nil => rfl
  | cons u log ih => rw [rollbackLoop, if_pos (by simp), ih]

structure Counted (s : Sys K V) : Prop where
  opened : s.state.opened = s.held.length
  outer : ∀ n, s.held.getLast? = some n → n = 0
  empty : s.held = [] → s.state.log = []

theorem push_state (s : State K V) (u : Undo K V) :
    (s.push u).opened = s.opened ∧ (s.opened = 0 → (s.push u).log = s.log) := by
  rw [State.push]
  split
  · rename_i h; exact ⟨rfl, fun e => by omega⟩
  · exact ⟨rfl, fun _ => rfl⟩

theorem counted_push {s : Sys K V} (h : Counted s) (m : Map K V) (u : Undo K V) :
    Counted ⟨({ s.state with map := m } : State K V).push u, s.held⟩ := by
  obtain ⟨h1, h2, h3⟩ := h
  obtain ⟨p1, p2⟩ := push_state ({ s.state with map := m } : State K V) u
  refine ⟨by rw [p1]; exact h1, h2, fun e => ?_⟩
  rw [p2 (by show s.state.opened = 0; rw [h1, e]; rfl)]
  exact h3 e

theorem counted_step {s s' : Sys K V} {b : Bool} {op : Op K V} (hn : Nested op) (h : Counted s)
    (hs : s.step op = some (s', b)) : Counted s' := by
  cases op with
  | insert k v =>
    injection hs with hs; injection hs with e1 e2; subst e1
    rw [State.insert]
    split <;> exact counted_push h _ _
  | remove k =>
    injection hs with hs; injection hs with e1 e2; subst e1
    rw [State.remove]
    split
    · exact counted_push h _ _
    · exact h
  | clear =>
    injection hs with hs; injection hs with e1 e2; subst e1
    exact ⟨rfl, fun n h => (by cases h), fun _ => rfl⟩
  | snapshot =>
    injection hs with hs; injection hs with e1 e2; subst e1
    obtain ⟨h1, h2, h3⟩ := h
    refine ⟨by simp [State.snapshot, h1], fun n hn => ?_, fun e => by cases e⟩
    cases hh : s.held with
    | nil =>
      have : n = s.state.log.length := by simpa [State.snapshot, hh] using hn.symm
      rw [this, h3 hh]; rfl
    | cons x l =>
      refine h2 n ?_
      rw [hh] at hn ⊢
      simpa using hn
  | rollback n =>
    have hn : n = 0 := hn
    subst hn
    obtain ⟨h1, h2, h3⟩ := h
    cases hh : s.held with
    | nil => simp [Sys.step, hh] at hs
    | cons x l =>
      simp only [Sys.step, hh, List.getElem?_cons_zero, Option.bind_some, State.rollbackTo] at hs
      split at hs
      · simp only [Option.map_some, Option.some.injEq, Prod.mk.injEq] at hs
        obtain ⟨rfl, -⟩ := hs
        rw [hh] at h1 h2
        refine ⟨by simp [h1], fun n hn => ?_, fun e => ?_⟩
        · refine h2 n ?_
          cases l with
          | nil => simp at hn
          | cons y l => simpa using hn
        · have e : l = [] := by simpa using e
          subst e
          have hx : x = 0 := h2 x rfl
          subst hx
          exact rollbackLoop_zero _ _
      · cases hs
  | commit n =>
    have hn : n = 0 := hn
    subst hn
    obtain ⟨h1, h2, h3⟩ := h
    cases hh : s.held with
    | nil => simp [Sys.step, hh] at hs
    | cons x l =>
      simp only [Sys.step, hh, List.getElem?_cons_zero, Option.bind_some, State.commit] at hs
      rw [hh] at h1 h2
      simp only [List.length_cons] at h1
      split at hs
      · split at hs
        · split at hs
          · simp only [Option.map_some, Option.some.injEq, Prod.mk.injEq] at hs
            obtain ⟨rfl, -⟩ := hs
            have : l = [] := List.length_eq_zero_iff.mp (by omega)
            subst this
            exact ⟨rfl, fun n hn => (by cases hn), fun _ => rfl⟩
          · cases hs
        · rename_i ho
          simp only [Option.map_some, Option.some.injEq, Prod.mk.injEq] at hs
          obtain ⟨rfl, -⟩ := hs
          refine ⟨by simp [h1], fun n hn => ?_, fun e => ?_⟩
          · refine h2 n ?_
            cases l with
            | nil => simp at hn
            | cons y l => simpa using hn
          · have e : l = [] := by simpa using e
            subst e; simp at h1; omega
      · cases hs

theorem counted_run {s s' : Sys K V} {ops : List (Op K V)} {bs : List Bool} (hn : ∀ op ∈ ops, Nested op) (h : Counted s)
    (hs : s.run ops = some (s', bs)) : Counted s' := by
  induction ops generalizing s bs with
  | nil => injection hs with hs; injection hs with e1 e2; subst e1; exact h
  | cons op ops ih =>
    rw [Sys.run, Option.bind_eq_some_iff] at hs
    obtain ⟨⟨t, b⟩, h1, h2⟩ := hs
    simp only [Option.map_eq_some_iff] at h2
    obtain ⟨⟨u, cs⟩, h3, h4⟩ := h2
    injection h4 with e1 e2
    subst e1
    exact ih (fun o ho => hn o (List.mem_cons_of_mem _ ho)) (counted_step (hn op (List.mem_cons_self ..)) h h1) h3

/-- **C27**: when snapshots are closed newest first, nothing is recorded while none is open: the log is empty, and
nothing will be written to it. -/
theorem log_released (ops : List (Op K V)) (hn : ∀ op ∈ ops, Nested op) {s : Sys K V} {bs : List Bool}
    (h : Sys.run ⟨.init, []⟩ ops = some (s, bs)) (hh : s.held = []) : s.state.log = [] ∧ s.state.opened = 0 := by
  have hc := counted_run hn ⟨rfl, fun n h => (by cases h), fun _ => rfl⟩ h
  exact ⟨hc.empty hh, by rw [hc.opened, hh]; rfl⟩

/-- **C27**: closing a snapshot when none is open is refused. -/
theorem close_unopened (s : State K V) (h : s.opened = 0) (n : Nat) : s.commit n = none ∧ s.rollbackTo n = none := by
  constructor
  · rw [State.commit, if_neg (by omega)]
  · rw [State.rollbackTo, if_neg (by omega)]

end Tinymist.SnapshotMap
