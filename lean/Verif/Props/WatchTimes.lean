import Verif.Lemmas.WatchPath
/-!
# C06, C07: when a file is forgotten, watched, unwatched and looked at again
-/
namespace Tinymist.Watch
variable {Path : Type} [DecidableEq Path]

theorem idle_snoc (ops : List (Op Path)) (op : Op Path) (p : Path) :
    idle (ops ++ [op]) p = match op with
      | .sync ds => if p ∈ ds.map (·.path) then some 0 else (idle ops p).map (· + 1)
      | _ => idle ops p := by
  unfold idle; rw [List.foldl_append]; cases op <;> rfl

/-- An entry is as old as the path has not been a dependency. -/
structure Aged (s : Actor Path) (ops : List (Op Path)) : Prop where
  keys : ∀ q, q ∈ s.keys ↔ (s.entries q).isSome = true
  age : ∀ p l, (s.entries p).map (·.lifetime) = some l →
    l ≤ s.lifetime ∧ idle ops p = some (s.lifetime - l) ∧ s.lifetime - l < 30
  gone : ∀ p, (s.entries p).map (·.lifetime) = none → ∀ k, idle ops p = some k → 30 ≤ k

theorem Aged.keep {s s' : Actor Path} {ops : List (Op Path)} (h : Aged s ops) (op : Op Path)
    (hid : ∀ p, idle (ops ++ [op]) p = idle ops p)
    (h1 : ∀ p, (s'.entries p).map (·.lifetime) = (s.entries p).map (·.lifetime))
    (h2 : s'.lifetime = s.lifetime) (h3 : s'.keys = s.keys) : Aged s' (ops ++ [op]) := by
  refine ⟨fun q => ?_, fun p l hl => ?_, fun p hp k hk => ?_⟩
  · have := congrArg Option.isSome (h1 q)
    simp only [Option.isSome_map] at this
    rw [h3, this]; exact h.keys q
  · rw [hid, h2]; exact h.age p l ((h1 p).symm.trans hl)
  · rw [hid] at hk; exact h.gone p ((h1 p).symm.trans hp) k hk

theorem unwatch_life (w : Bool) (e : Entry) : (unwatch w e).lifetime = e.lifetime := by
  unfold unwatch; split <;> rfl

theorem updated_life (w : Bool) (tick life : Nat) (o : Option Entry) (od : Option (Dep Path)) :
    (updated w tick life o od).map (·.lifetime) =
      if od.isSome then some life else o.map (·.lifetime) := by
  cases od with
  | none => cases o <;> rfl
  | some d => simp only [updated, Option.map_some, (firstEntry_rest w tick life (unseen o) d).2]; rfl

theorem find_dep (ds : List (Dep Path)) (p : Path) :
    (ds.find? (fun d => d.path = p)).isSome = true ↔ p ∈ ds.map (·.path) := by
  simp only [List.find?_isSome, decide_eq_true_eq, List.mem_map]

theorem aged_run (w : Bool) (ops : List (Op Path)) : Aged (run (init w) ops).1 ops := by
  induction ops using Util.reverseInd with
  | nil => exact ⟨fun q => by simp [run, init], fun p l h => (by cases h), fun p _ k hk => (by cases hk)⟩
  | append_singleton ops op ih =>
    rw [run_snoc]
    generalize (run (init w) ops).1 = s at *
    have h0 : Aged { s with tick := s.tick + 1 } ops := ⟨ih.keys, ih.age, ih.gone⟩
    cases op with
    | event ps removal =>
      simp only [step]
      split
      · obtain ⟨a, b, c, -⟩ := event_life { s with tick := s.tick + 1 } ps removal
        exact h0.keep _ (fun p => idle_snoc ops _ p) a b c
      · exact h0.keep _ (fun p => idle_snoc ops _ p) (fun _ => rfl) rfl rfl
    | recheck i early =>
      obtain ⟨a, b, c, -⟩ := recheck_life { s with tick := s.tick + 1 } i early
      exact h0.keep _ (fun p => idle_snoc ops _ p) a b c
    | sync ds =>
      simp only [step]
      have hlife : (updateWatches { s with tick := s.tick + 1 } ds).1.lifetime = s.lifetime + 1 :=
        (syncAll_rest ds _ []).2.1
      have hent : ∀ p, ((updateWatches { s with tick := s.tick + 1 } ds).1.entries p).map (·.lifetime) =
          ((if (ds.find? (fun d => d.path = p)).isSome then some (s.lifetime + 1)
            else (s.entries p).map (·.lifetime))).filter (fun l => decide (s.lifetime + 1 - l < 30)) := by
        intro p
        rw [(update_at { s with tick := s.tick + 1 } ds p).1, ← updated_life s.hasWatcher (s.tick + 1)]
        generalize updated s.hasWatcher (s.tick + 1) (s.lifetime + 1) (s.entries p) _ = u
        cases u with
        | none => rfl
        | some e =>
          simp only [Option.map_some, Option.filter_some, fresh, unwatch_life]
          split <;> simp [unwatch_life]
      refine ⟨update_keys _ ds h0.keys, fun p l hl => ?_, fun p hp k hk => ?_⟩
      · rw [hent] at hl
        rw [hlife, idle_snoc]
        obtain ⟨hl, hf⟩ := Option.filter_eq_some_iff.mp hl
        have hf := of_decide_eq_true hf
        simp only
        split at hl
        · rename_i hd
          injection hl with hl
          subst hl
          rw [if_pos ((find_dep ds p).mp hd)]
          exact ⟨Nat.le_refl _, by simp, by simp⟩
        · rename_i hd
          rw [if_neg (fun h => hd ((find_dep ds p).mpr h))]
          obtain ⟨a, b, c⟩ := ih.age p l hl
          refine ⟨by omega, ?_, hf⟩
          rw [b]
          simp only [Option.map_some, Option.some.injEq]
          omega
      · rw [hent] at hp
        rw [idle_snoc] at hk
        simp only at hk
        split at hp
        · rename_i hd
          have := Option.filter_eq_none_iff.mp hp (s.lifetime + 1) rfl
          simp at this
        · rename_i hd
          rw [if_neg (fun h => hd ((find_dep ds p).mpr h))] at hk
          obtain ⟨k0, hk0, rfl⟩ := Option.map_eq_some_iff.mp hk
          cases hm : (s.entries p).map (·.lifetime) with
          | none => exact Nat.le_succ_of_le (ih.gone p hm k0 hk0)
          | some l =>
            rw [hm] at hp
            have := Option.filter_eq_none_iff.mp hp l rfl
            obtain ⟨a, b, c⟩ := ih.age p l hm
            rw [b] at hk0
            injection hk0 with hk0
            simp only [decide_eq_true_eq] at this
            omega

theorem run_life (w : Bool) (ops : List (Op Path)) : (run (init (Path := Path) w) ops).1.hasWatcher = w := by
  induction ops using Util.reverseInd with
  | nil => rfl
  | append_singleton ops op ih =>
    rw [run_snoc]
    cases op with
    | event ps removal =>
      simp only [step]
      split
      · exact (event_life _ ps removal).2.2.2.1.trans ih
      · exact ih
    | recheck i early => exact (recheck_life _ i early).2.2.2.1.trans ih
    | sync ds => exact (syncAll_rest ds _ []).1.trans ih

/-- C07: a file is reported as removed exactly when, with this update, it has not been a dependency for thirty
updates in a row. -/
theorem forgotten_after_30 (w : Bool) (ops : List (Op Path)) (op : Op Path) (p : Path) :
    (∃ c, (run (init w) (ops ++ [op])).2.getLast? = some c ∧ p ∈ c.removes) ↔
      (∃ ds, op = .sync ds) ∧ idle (ops ++ [op]) p = some 30 := by
  have h := aged_run w ops
  rw [run_snoc, List.getLast?_concat]
  generalize (run (init w) ops).1 = s at *
  have hc : (∃ c, some (step s op).2 = some c ∧ p ∈ c.removes) ↔ p ∈ (step s op).2.removes := by
    constructor
    · rintro ⟨c, hc, hp⟩; injection hc with hc; rw [hc]; exact hp
    · exact fun hp => ⟨_, rfl, hp⟩
  rw [hc]
  cases op with
  | event ps removal =>
    refine ⟨fun hp => ?_, fun hp => by obtain ⟨⟨_, h⟩, _⟩ := hp; cases h⟩
    simp only [step] at hp
    split at hp
    · rw [(event_life _ ps removal).2.2.2.2] at hp; cases hp
    · cases hp
  | recheck i early =>
    refine ⟨fun hp => ?_, fun hp => by obtain ⟨⟨_, h⟩, _⟩ := hp; cases h⟩
    rw [show (step s (.recheck i early)).2.removes = [] from (recheck_life _ i early).2.2.2.2] at hp
    cases hp
  | sync ds =>
    have hi := idle_snoc ops (.sync ds) p
    rw [hi]
    rw [show (step s (.sync ds)).2.removes = (updateWatches { s with tick := s.tick + 1 } ds).2.removes from rfl,
      update_removes { s with tick := s.tick + 1 } ds p h.keys]
    have hl := updated_life s.hasWatcher (s.tick + 1) (s.lifetime + 1) (s.entries p) (ds.find? (fun d => d.path = p))
    constructor
    · rintro ⟨e, he, hf⟩
      refine ⟨⟨ds, rfl⟩, ?_⟩
      have hf := of_decide_eq_false hf
      rw [he, Option.map_some] at hl
      simp only
      split at hl
      · injection hl with hl
        rw [hl] at hf
        simp at hf
      · rename_i hd
        rw [if_neg (fun h => hd ((find_dep ds p).mpr h))]
        obtain ⟨a, b, c⟩ := h.age p _ hl.symm
        rw [b]
        simp only [Option.map_some, Option.some.injEq]
        simp only at hf
        omega
    · rintro ⟨-, hi⟩
      simp only at hi
      split at hi
      · cases hi
      · rename_i hd
        rw [if_neg (fun h => hd ((find_dep ds p).mp h))] at hl
        obtain ⟨k, hk, hk2⟩ := Option.map_eq_some_iff.mp hi
        cases hm : (s.entries p).map (·.lifetime) with
        | none => have := h.gone p hm k hk; omega
        | some l =>
          rw [hm] at hl
          obtain ⟨e, he, hel⟩ := Option.map_eq_some_iff.mp hl
          refine ⟨e, he, decide_eq_false ?_⟩
          obtain ⟨a, b, c⟩ := h.age p l hm
          rw [b] at hk
          injection hk with hk
          rw [hel]
          simp only
          omega

theorem step_event {s : Actor Path} (hw : s.hasWatcher = true) (ps : List (Path × Snap)) (removal : Bool) :
    step s (.event ps removal) = notifyEvent { s with tick := s.tick + 1 } ps removal := by
  simp only [step, hw, if_true]

theorem all_possible (ops : List (Op Path)) : ∀ op ∈ ops, op.Possible true := by
  intro op _; cases op <;> first | exact trivial | exact rfl

/-- C07: a file that is watched and stays a dependency stays watched, whatever the operating system would
answer to a second request. -/
theorem watched_stays (ops : List (Op Path)) (ds : List (Dep Path)) (p : Path)
    (hw : (run (init true) ops).1.osWatched p = true) (hp : p ∈ ds.map (·.path)) :
    (run (init true) (ops ++ [.sync ds])).1.osWatched p = true := by
  obtain ⟨h, hww⟩ := full_run true ops (all_possible ops)
  rw [run_snoc]
  simp only [step]
  generalize (run (init true) ops).1 = s at *
  rw [(update_at { s with tick := s.tick + 1 } ds p).2]
  obtain ⟨d, hd⟩ := Option.isSome_iff_exists.mp ((find_dep ds p).mpr hp)
  obtain ⟨e, he, hwe⟩ := (h.inv.os p).mp hw
  have hna : firstAsks (s.lifetime + 1) (unseen (s.entries p)) d = false := by
    rw [he]
    simp [firstAsks, asks, unseen, baseEntry, hwe]
  have hseen := (firstEntry_rest true (s.tick + 1) (s.lifetime + 1) (unseen (s.entries p)) d).1
  simp only [hd, updated, hww, hna, hseen, hw]
  simp

/-- C07: a path that is a directory each time it is a dependency is never watched. -/
theorem directory_not_watched (ops : List (Op Path)) (p : Path)
    (hdir : ∀ ds, .sync ds ∈ ops → ∀ d ∈ ds, d.path = p → d.regular = false) :
    (run (init true) ops).1.osWatched p = false := by
  induction ops using Util.reverseInd with
  | nil => rfl
  | append_singleton ops op ih =>
    have ih := ih (fun ds hds => hdir ds (List.mem_append_left _ hds))
    obtain ⟨h, hww⟩ := full_run true ops (all_possible ops)
    rw [run_snoc]
    generalize (run (init true) ops).1 = s at *
    have h0 : Inv { s with tick := s.tick + 1 } (lastReport (run (init true) ops).2) (lastFound ops) :=
      ⟨h.inv.good, h.inv.os, h.inv.noOs⟩
    cases op with
    | event ps removal =>
      simp only [step, hww, if_true]
      cases hc : (notifyEvent { s with tick := s.tick + 1 } ps removal).1.osWatched p with
      | false => simpa only [hww] using hc
      | true =>
        have := (event_inv (s := { s with tick := s.tick + 1 }) hww h0 ps removal).2.2.2 p hc
        rw [show _ = false from ih] at this
        cases this
    | recheck i early =>
      have := (recheck_inv h0 i early).2.2.2
      rw [show (step s (.recheck i early)).1 = (recheck { s with tick := s.tick + 1 } i early).1 from rfl, this]
      exact ih
    | sync ds =>
      simp only [step]
      rw [(update_at { s with tick := s.tick + 1 } ds p).2]
      have hos : (match ds.find? (fun d => d.path = p) with
          | none => s.osWatched p
          | some d => if s.hasWatcher && firstAsks (s.lifetime + 1) (unseen (s.entries p)) d then d.watchOk
            else s.osWatched p) = false := by
        split
        · exact ih
        · rename_i d hd
          have hreg := hdir ds (by simp) d (List.mem_of_find?_eq_some hd)
            (by simpa using List.find?_some hd)
          simp only [firstAsks, asks, hreg, Bool.false_and, Bool.and_false, Bool.false_eq_true, if_false]
          exact ih
      simp only
      split
      · split
        · rfl
        · exact hos
      · exact ih

theorem drop_os (ps : List Path) : ∀ {s : Actor Path} {rep found : Path → Option Snap},
    Inv s rep found → ∀ p ∈ ps, (ps.foldl dropWatch s).osWatched p = false := by
  intro s
  induction ps generalizing s with
  | nil => intro _ _ _ p hp; cases hp
  | cons q ps ih =>
    intro rep found h p hp
    rw [List.foldl_cons]
    have h' := drop_inv h q
    by_cases hpp : p ∈ ps
    · exact ih h'.1 p hpp
    · have hpq : p = q := (List.mem_cons.mp hp).resolve_right hpp
      subst hpq
      have h1 : (dropWatch s p).osWatched p = false := by
        unfold dropWatch
        split
        · rename_i hn
          cases hc : s.osWatched p with
          | false => rfl
          | true => obtain ⟨e, he, _⟩ := (h.os p).mp hc; rw [hn] at he; cases he
        · rename_i e he
          split
          · simp only [set_eq]
          · rename_i hwe
            cases hc : s.osWatched p with
            | false => rfl
            | true =>
              obtain ⟨e', he', hw'⟩ := (h.os p).mp hc
              rw [he] at he'; injection he' with he'; subst he'
              exact absurd hw' hwe
      cases hc : (ps.foldl dropWatch (dropWatch s p)).osWatched p with
      | false => rfl
      | true =>
        have := (drops_inv ps h'.1).2.2.2 p hc
        rw [h1] at this; cases this

/-- C07: after an event that says a path was removed or renamed away, the path is no longer watched. -/
theorem removal_unwatches (ops : List (Op Path)) (ps : List (Path × Snap)) (p : Path) (hp : p ∈ ps.map (·.1)) :
    (run (init true) (ops ++ [.event ps true])).1.osWatched p = false := by
  obtain ⟨h, hww⟩ := full_run true ops (all_possible ops)
  rw [run_snoc]
  generalize (run (init true) ops).1 = s at *
  have h0 : Inv { s with tick := s.tick + 1 } (lastReport (run (init true) ops).2) (lastFound ops) :=
    ⟨h.inv.good, h.inv.os, h.inv.noOs⟩
  have := (event_inv (s := { s with tick := s.tick + 1 }) hww h0 ps false).1
  have hs : (step s (.event ps true)).1 =
      (ps.map (·.1)).foldl dropWatch (notifyEvent { s with tick := s.tick + 1 } ps false).1 := by
    simp only [step, hww, if_true]
    rfl
  rw [hs]
  exact drop_os _ this p hp

/-! ## Files that are not caught missing or empty -/

theorem says_last (ins : List (Path × Snap)) (p : Path) :
    (says ins p).getLast? = (ins.reverse.find? (fun x => x.1 = p)).map (fun x => some x.2) := by
  induction ins using Util.reverseInd with
  | nil => rfl
  | append_singleton l x ih =>
    rw [says_snoc, List.reverse_append]
    by_cases h : x.1 = p
    · simp [h]
    · simp only [if_neg h, List.append_nil, ih]
      simp [h]

theorem lastReport_last (cs : List (Change Path)) (p : Path) :
    lastReport cs p = (reports cs p).getLast?.join := by
  induction cs using Util.reverseInd with
  | nil => rfl
  | append_singleton cs c ih =>
    rw [lastReport_snoc, reports_snoc, ih]
    unfold Change.tell
    rw [List.getLast?_append, List.getLast?_append, says_last]
    cases c.inserts.reverse.find? (fun x => x.1 = p) with
    | some x => rfl
    | none =>
      simp only [Option.map_none, Option.none_or]
      by_cases hr : p ∈ c.removes
      · rw [if_pos hr]
        cases hf : c.removes.filter (· = p) with
        | nil => exact absurd (List.filter_eq_nil_iff.mp hf p hr) (by simp)
        | cons a l =>
          have : ((a :: l).map (fun _ => (none : Option Snap))).getLast? = some none := by
            rw [List.map_const', List.getLast?_replicate]; simp
          rw [this]; rfl
      · rw [if_neg hr]
        have : c.removes.filter (· = p) = [] := by
          rw [List.filter_eq_nil_iff]
          intro x hx
          simp only [decide_eq_true_eq]
          rintro rfl
          exact hr hx
        rw [this]; rfl

/-- The entry is stable and remembers what was found. -/
def Knows (s : Actor Path) (p : Path) (o : Option Snap) : Prop :=
  ∀ e, s.entries p = some e → e.state = .stable ∧ e.prev = o

theorem observe_knows (tick : Nat) (e : Entry) (f : Snap) (hs : e.state = .stable) (hf : f.Steady) :
    (observe tick e f).1.state = .stable ∧ (observe tick e f).1.prev = some f := by
  rcases observe_steady tick e f hs hf with ⟨o, -⟩ | ⟨o, h⟩
  · rw [o]; exact ⟨rfl, rfl⟩
  · rw [o]; exact ⟨hs, h⟩

theorem lookAll_knows (ps : List (Path × Snap)) (p : Path) : ∀ (s : Actor Path) (ins : List (Path × Snap)) (o : Option Snap),
    Knows s p o → (∀ x ∈ ps, x.1 = p → x.2.Steady) →
    Knows (lookAll s ins ps).1 p (((ps.reverse.find? (fun x => x.1 = p)).map (·.2)).or o) := by
  induction ps with
  | nil => intro s ins o h _; exact h
  | cons x ps ih =>
    intro s ins o h hd
    have h1 : Knows (look s ins x.1 x.2).1 p (if x.1 = p then some x.2 else o) := by
      intro e he
      rw [look_at] at he
      split at he
      · rename_i hx
        rw [if_pos hx]
        obtain ⟨e0, a, rfl⟩ := Option.map_eq_some_iff.mp he
        exact observe_knows _ _ _ (h e0 a).1 (hd x (List.mem_cons_self ..) hx)
      · rename_i hx
        rw [if_neg hx]
        exact h e he
    have := ih _ (look s ins x.1 x.2).2 _ h1 (fun y hy => hd y (List.mem_cons_of_mem _ hy))
    have heq : (((x :: ps).reverse.find? (fun y => y.1 = p)).map (·.2)).or o =
        ((ps.reverse.find? (fun y => y.1 = p)).map (·.2)).or (if x.1 = p then some x.2 else o) := by
      rw [List.reverse_cons, List.find?_append]
      cases ps.reverse.find? (fun y => y.1 = p) with
      | some y => rfl
      | none => by_cases hx : x.1 = p <;> simp [hx]
    rw [heq]
    exact this

theorem drop_knows (ps : List Path) (p : Path) (o : Option Snap) : ∀ (s : Actor Path),
    Knows s p o → Knows (ps.foldl dropWatch s) p o := by
  induction ps with
  | nil => intro s h; exact h
  | cons q ps ih =>
    intro s h
    refine ih _ fun e he => ?_
    unfold dropWatch at he
    split at he
    · exact h e he
    · rename_i e0 h0
      split at he
      · by_cases hp : p = q
        · subst hp
          simp only [set_eq] at he
          injection he with he
          subst he
          exact h e0 h0
        · simp only [set_ne _ _ hp] at he
          exact h e he
      · exact h e he

theorem steady_run (ops : List (Op Path)) (p : Path) (hsteady : ∀ op ∈ ops, ∀ x ∈ op.sights p, x.Steady) :
    Knows (run (init true) ops).1 p (lastFound ops p) := by
  induction ops using Util.reverseInd with
  | nil => intro e h; cases h
  | append_singleton ops op ih =>
    have ih := ih (fun o ho => hsteady o (List.mem_append_left _ ho))
    have hw := run_life (Path := Path) true ops
    have hst := hsteady op (by simp)
    rw [run_snoc, lastFound_snoc]
    generalize (run (init true) ops).1 = s at *
    cases op with
    | event ps removal =>
      have hd : ∀ x ∈ ps, x.1 = p → x.2.Steady := fun x hx hp =>
        hst x.2 (List.mem_map.mpr ⟨x, List.mem_filter.mpr ⟨hx, by simp [hp]⟩, rfl⟩)
      have h1 := lookAll_knows ps p { s with tick := s.tick + 1 } [] _ ih hd
      rw [step_event hw]
      cases removal with
      | false => exact h1
      | true => exact drop_knows _ p _ _ h1
    | recheck i early =>
      change Knows (recheck { s with tick := s.tick + 1 } i early).1 p (lastFound ops p)
      unfold recheck
      split
      · exact ih
      split
      · exact ih
      rename_i tick q _
      simp only
      split
      · exact ih
      rename_i e0 he0
      have key : Knows { s with
          tick := s.tick + 1
          queue := s.queue.eraseIdx i
          entries := set s.entries q (some { e0 with state := State.stable }) } p (lastFound ops p) := by
        intro e he
        by_cases hp : p = q
        · subst hp
          simp only [set_eq] at he
          injection he with he
          subst he
          exact ⟨rfl, (ih e0 he0).2⟩
        · simp only [set_ne _ _ hp] at he
          exact ih e he
      split
      · exact key
      · split
        · split <;> exact key
        · exact key
    | sync ds =>
      intro e he
      rw [show (step s (.sync ds)).1 = (updateWatches { s with tick := s.tick + 1 } ds).1 from rfl,
        (update_at _ ds p).1] at he
      obtain ⟨he, -⟩ := Option.filter_eq_some_iff.mp he
      obtain ⟨u, hu, rfl⟩ := Option.map_eq_some_iff.mp he
      have hsame : ∀ e0, (unwatch s.hasWatcher e0).prev = e0.prev ∧ (unwatch s.hasWatcher e0).state = e0.state := by
        intro e0; unfold unwatch; split <;> exact ⟨rfl, rfl⟩
      simp only
      rw [(hsame u).1, (hsame u).2]
      simp only [Op.finds]
      cases hf : ds.find? (fun d => d.path = p) with
      | none =>
        rw [hf] at hu
        obtain ⟨e0, h0, rfl⟩ := Option.map_eq_some_iff.mp hu
        exact ih e0 h0
      | some d =>
        rw [hf] at hu
        simp only [updated, firstEntry, hw, if_true] at hu
        injection hu with hu
        subst hu
        have hp : d.path = p := by simpa using List.find?_some hf
        refine observe_knows _ _ _ ?_ (hst d.file (List.mem_map.mpr
          ⟨d, List.mem_filter.mpr ⟨List.mem_of_find?_eq_some hf, by simp [hp]⟩, rfl⟩))
        show (baseEntry (s.lifetime + 1) (unseen (s.entries p))).state = .stable
        cases h0 : s.entries p with
        | none => rfl
        | some e0 => exact (ih e0 h0).1

/-- C06, for files that are not caught empty or missing: whatever was found last, a content or an error, is
what was last reported.
Missing from the full property: files caught empty or missing (see `removal_not_reported`). -/
theorem steady_reported_partial (ops : List (Op Path)) (p : Path)
    (hsteady : ∀ op ∈ ops, ∀ x ∈ op.sights p, x.Steady) (hdep : p ∈ (lastDeps ops).map (·.path)) :
    lastReport (run (init true) ops).2 p = lastFound ops p ∧ lastFound ops p ≠ none := by
  obtain ⟨h, -⟩ := full_run true ops (all_possible ops)
  obtain ⟨d, hd, rfl⟩ := List.mem_map.mp hdep
  obtain ⟨e, he⟩ := Option.isSome_iff_exists.mp (h.has d hd)
  obtain ⟨-, x, hx, hr⟩ := (seq_run ops d.path hsteady).1.ent e he
  have hk := (steady_run ops d.path hsteady e he).2
  rw [lastReport_last, hr, ← hk, hx]
  exact ⟨rfl, by simp⟩

/-! ## The second look -/

/-- State and memory of the entry of a path. -/
def view (s : Actor Path) (p : Path) : Option (State × Option Snap) := (s.entries p).map fun e => (e.state, e.prev)

theorem drop_view (s : Actor Path) (p q : Path) :
    view (dropWatch s q) p = view s p ∧ (dropWatch s q).queue = s.queue ∧ (dropWatch s q).tick = s.tick := by
  unfold dropWatch
  split
  · exact ⟨rfl, rfl, rfl⟩
  · rename_i e he
    split
    · refine ⟨?_, rfl, rfl⟩
      unfold view
      by_cases hp : p = q
      · subst hp; simp only [set_eq, he, Option.map_some]
      · simp only [set_ne _ _ hp]
    · exact ⟨rfl, rfl, rfl⟩

theorem event_view (s : Actor Path) (p : Path) (f : Snap) (removal : Bool) (hw : s.hasWatcher = true) :
    view (step s (.event [(p, f)] removal)).1 p =
      (s.entries p).map (fun e => ((observe (s.tick + 1) e f).1.state, (observe (s.tick + 1) e f).1.prev)) ∧
    (step s (.event [(p, f)] removal)).1.queue = (match s.entries p with
      | none => s.queue
      | some e => if (observe (s.tick + 1) e f).2 = .recheck then s.queue ++ [(s.tick + 1, p)] else s.queue) ∧
    (step s (.event [(p, f)] removal)).1.tick = s.tick + 1 := by
  have h : ∀ t : Actor Path, t = (look { s with tick := s.tick + 1 } [] p f).1 →
      view t p = (s.entries p).map (fun e => ((observe (s.tick + 1) e f).1.state, (observe (s.tick + 1) e f).1.prev)) ∧
      t.queue = (match s.entries p with
      | none => s.queue
      | some e => if (observe (s.tick + 1) e f).2 = .recheck then s.queue ++ [(s.tick + 1, p)] else s.queue) ∧
      t.tick = s.tick + 1 := by
    rintro t rfl
    unfold view
    rw [look_at, if_pos rfl]
    refine ⟨by simp only [Option.map_map]; rfl, ?_, (look_rest _ _ _ _).2.2.2.2⟩
    unfold look
    simp only
    cases s.entries p <;> rfl
  rw [step_event hw]
  cases removal with
  | false => exact h _ rfl
  | true =>
    obtain ⟨a, b, c⟩ := drop_view (look { s with tick := s.tick + 1 } [] p f).1 p p
    have := h _ rfl
    exact ⟨a.trans this.1, b.trans this.2.1, c.trans this.2.2⟩

/-- C06: a file that had a content, is then found missing, and then unreadable for another reason, is reported
as unreadable when it is looked at for the second time. -/
theorem second_look_reported (ops : List (Op Path)) (p : Path) (c : List UInt8) (x1 x2 : FileError) (r1 r2 : Bool)
    (hdep : p ∈ (lastDeps ops).map (·.path)) (hc : c ≠ []) (hfound : lastFound ops p = some (.ok c))
    (hx1 : x1 = .notFound ∨ ∃ m, x1 = .other m) (hne : x1 ≠ x2) :
    lastReport (run (init true) (ops ++ [.event [(p, .err x1)] r1, .event [(p, .err x2)] r2,
      .recheck (run (init true) ops).1.queue.length false])).2 p = some (.err x2) := by
  obtain ⟨h, hw⟩ := full_run true ops (all_possible ops)
  obtain ⟨d, hd, rfl⟩ := List.mem_map.mp hdep
  obtain ⟨e, he⟩ := Option.isSome_iff_exists.mp (h.has d hd)
  have g := h.inv.good _ e he
  have hprev := g.look hw _ hfound hc
  have hst : e.state = .stable := by
    cases hs : e.state with
    | stable => rfl
    | emptyOrRemoval a b => exact absurd hc (g.eor a b hs _ hprev)
  have htr : x1.transient = true := by rcases hx1 with rfl | ⟨m, rfl⟩ <;> rfl
  generalize hp : d.path = p at *
  rw [show ops ++ [Op.event [(p, .err x1)] r1, .event [(p, .err x2)] r2,
      .recheck (run (init true) ops).1.queue.length false] = ((ops ++ [Op.event [(p, .err x1)] r1]) ++
      [.event [(p, .err x2)] r2]) ++ [.recheck (run (init true) ops).1.queue.length false] by simp,
    run_snoc, lastReport_snoc, run_snoc, run_snoc]
  have hw1 := run_life (Path := Path) true (ops ++ [Op.event [(p, .err x1)] r1])
  rw [run_snoc] at hw1
  generalize (run (init true) ops).1 = s at *
  obtain ⟨a1, b1, c1⟩ := event_view s p (.err x1) r1 hw
  have ho : observe (s.tick + 1) e (.err x1) =
      ({ e with state := .emptyOrRemoval (s.tick + 1) (.err x1), prev := some (.err x1) }, .recheck) := by
    unfold observe
    simp only [hprev, hst, htr, if_true]
  simp only [he, Option.map_some, ho, if_true] at a1 b1
  simp only at hw1
  generalize (step s (.event [(p, .err x1)] r1)).1 = s1 at *
  obtain ⟨a2, b2, c2⟩ := event_view s1 p (.err x2) r2 hw1
  unfold view at a1
  obtain ⟨e1, he1, hv1⟩ := Option.map_eq_some_iff.mp a1
  injection hv1 with hv1 hv2
  have ho2 : observe (s1.tick + 1) e1 (.err x2) = ({ e1 with state := .emptyOrRemoval (s.tick + 1) (.err x2) }, .silent) := by
    unfold observe
    simp only [hv1, hv2]
  simp only [he1, Option.map_some, ho2, reduceCtorEq, if_false] at a2 b2
  generalize (step s1 (.event [(p, .err x2)] r2)).1 = s2 at *
  unfold view at a2
  obtain ⟨e2, he2, hw2⟩ := Option.map_eq_some_iff.mp a2
  injection hw2 with hw2 hw3
  have hq : s2.queue[s.queue.length]? = some (s.tick + 1, p) := by rw [b2, b1]; simp
  have hne' : ¬ (some (Snap.err x2) = e2.prev) := by
    rw [hw3, hv2]
    intro hh
    injection hh with hh
    injection hh with hh
    exact hne hh.symm
  have : (step s2 (.recheck s.queue.length false)).2 = ⟨[], [(p, .err x2)]⟩ := by
    simp only [step, recheck, Bool.false_eq_true, if_false, hq, he2, hw2, if_true, hne']
  rw [this]
  simp [Change.tell]

section Examples
private def A : List UInt8 := [65]
private def dep (p : Nat) (s : Snap) : Dep Nat := ⟨p, true, true, s⟩

/-- C06 fails: a delayed second look that belongs to an earlier moment throws away what the later one is waiting
for. The file has been unreadable since the last event, nothing is pending, and the report still shows the
content. -/
theorem stale_look_loses_error : ∃ ops : List (Op Nat),
    1 ∈ (lastDeps ops).map (·.path) ∧ lastFound ops 1 = some (.err (.hard 0)) ∧
    (run (init true) ops).1.queue = [] ∧ lastReport (run (init true) ops).2 1 = some (.ok [66]) :=
  ⟨[.sync [dep 1 (.ok A)], .event [(1, .err .notFound)] false, .event [(1, .ok [66])] false,
    .event [(1, .err .notFound)] false, .event [(1, .err (.hard 0))] false, .recheck 0 false, .recheck 0 false],
    by decide +kernel⟩

/-- Used once, then thirty updates without it: forgotten with the thirtieth, not before. -/
example : let ops : List (Op Nat) := .sync [dep 1 (.ok A)] :: List.replicate 29 (.sync [dep 2 (.ok A)])
    idle ops 1 = some 29 ∧ idle (ops ++ [.sync []]) 1 = some 30 ∧
    (run (init true) (ops ++ [.sync []])).2.getLast?.map (·.removes) = some [1] ∧
    (run (init true) ops).2.getLast?.map (·.removes) = some [] := by decide +kernel

/-- Watched, and still watched although a second request would fail; unwatched when it is removed. -/
example : (run (init true) [.sync [dep 1 (.ok A)]]).1.osWatched 1 = true ∧
    (run (init true) ([.sync [dep 1 (.ok A)], .sync [⟨1, true, false, .ok A⟩]] : List (Op Nat))).1.osWatched 1 = true ∧
    (run (init true) ([.sync [dep 1 (.ok A)], .event [(1, .err .notFound)] true] : List (Op Nat))).1.osWatched 1 = false ∧
    (run (init true) ([.sync [⟨1, false, true, .err (.hard 0)⟩]] : List (Op Nat))).1.osWatched 1 = false := by
  decide +kernel

/-- Steady, with an error. -/
example : let ops : List (Op Nat) := [.sync [dep 1 (.ok A)], .event [(1, .err (.hard 3))] false]
    1 ∈ (lastDeps ops).map (·.path) ∧ (∀ op ∈ ops, ∀ x ∈ op.sights 1, x.Steady) ∧
    lastReport (run (init true) ops).2 1 = some (.err (.hard 3)) := by
  refine ⟨by decide +kernel, ?_, by decide +kernel⟩
  intro op hop x hx
  simp only [List.mem_cons, List.not_mem_nil, or_false] at hop
  rcases hop with rfl | rfl <;> revert x <;> decide +kernel

/-- Missing, then not allowed to read. -/
example : let ops : List (Op Nat) := [.sync [dep 1 (.ok A)]]
    1 ∈ (lastDeps ops).map (·.path) ∧ lastFound ops 1 = some (.ok A) ∧
    lastReport (run (init true) (ops ++ [.event [(1, .err .notFound)] true, .event [(1, .err (.hard 0))] false,
      .recheck 0 false])).2 1 = some (.err (.hard 0)) := by decide +kernel
end Examples

end Tinymist.Watch
