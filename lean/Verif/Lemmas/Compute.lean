import Verif.Spec.Compute
namespace Tinymist.Compute
variable {K R : Type} [DecidableEq K]

theorem count_set {α : Type} (f : α → List K) (l : List α) (i : Nat) (a b : α) (h : l[i]? = some a) (k : K) :
    ((l.set i b).flatMap f).count k + (f a).count k = (l.flatMap f).count k + (f b).count k := by
  induction l generalizing i with
  | nil => cases h
  | cons x l ih =>
    cases i with
    | zero =>
      cases h
      simp only [List.set_cons_zero, List.flatMap_cons, List.count_append]
      omega
    | succ i =>
      have := ih i h
      simp only [List.set_cons_succ, List.flatMap_cons, List.count_append]
      omega

/-- The keys of all initialisers being run. -/
def owned (s : State K R) : List K := s.threads.flatMap fun t => t.frames.map (·.1)

def runs (c : Cell R) : Nat := match c with | .running => 1 | _ => 0
def dones (c : Cell R) : Nat := match c with | .done _ => 1 | _ => 0

theorem setCell_same (cells : K → Cell R) (k : K) (c : Cell R) : setCell cells k c k = c := if_pos rfl
theorem setCell_ne (cells : K → Cell R) {k x : K} (c : Cell R) (h : x ≠ k) : setCell cells k c x = cells x := if_neg h

structure Inv (s : State K R) : Prop where
  owned : ∀ k, (owned s).count k = runs (s.cells k)
  starts : ∀ k, starts s.log k = ends s.log k + gaveUp s.log k + runs (s.cells k)
  once : ∀ k, ends s.log k + gifts s.log k = dones (s.cells k)
  same : ∀ e ∈ s.log, ∀ k r, e.result = some (k, r) → s.cells k = .done r

theorem setTop_frames (t : Thread K R) (p : Prog K R) : (t.setTop p).frames.map (·.1) = t.frames.map (·.1) := by
  rw [Thread.setTop]
  split <;> simp_all

theorem owned_setTop {s : State K R} {i : Nat} {t : Thread K R} (ht : s.threads[i]? = some t) (p : Prog K R)
    (cells : K → Cell R) (log : List (Event K R)) (k : K) :
    (owned ⟨cells, s.threads.set i (t.setTop p), log⟩).count k = (owned s).count k := by
  have := count_set (fun t : Thread K R => t.frames.map (·.1)) s.threads i t (t.setTop p) ht k
  simp only [setTop_frames] at this
  simp only [owned]
  omega

theorem act_go {cells : K → Cell R} {p p' : Prog K R} {ev : List (Event K R)} (h : act cells p = .go p' ev) :
    ev = [] ∨ ∃ k r, ev = [.observed k r] ∧ cells k = .done r := by
  cases p with
  | ret r => cases h
  | panic => cases h
  | compute k c =>
    rw [act] at h
    split at h
    · injection h with _ h; exact Or.inr ⟨_, _, h.symm, by assumption⟩
    · cases h
    · cases h
  | get k c =>
    rw [act] at h
    split at h
    · injection h with _ h; exact Or.inr ⟨_, _, h.symm, by assumption⟩
    · injection h with _ h; exact Or.inl h.symm
  | provide k r c =>
    rw [act] at h
    split at h
    · injection h with _ h; exact Or.inl h.symm
    · cases h
    · cases h

theorem act_call {cells : K → Cell R} {p : Prog K R} {k : K} (h : act cells p = .call k) :
    cells k = .empty ∧ ∃ c, p = .compute k c := by
  cases p with
  | ret r => cases h
  | panic => cases h
  | compute k' c =>
    rw [act] at h
    split at h <;> cases h
    exact ⟨by assumption, c, rfl⟩
  | get k c => rw [act] at h; split at h <;> cases h
  | provide k r c => rw [act] at h; split at h <;> cases h

theorem act_set {cells : K → Cell R} {p p' : Prog K R} {k : K} {r : R} (h : act cells p = .set k r p') :
    cells k = .empty ∧ ∃ c, p = .provide k r c ∧ p' = c true := by
  cases p with
  | ret r => cases h
  | panic => cases h
  | compute k' c => rw [act] at h; split at h <;> cases h
  | get k c => rw [act] at h; split at h <;> cases h
  | provide k r c =>
    rw [act] at h
    split at h <;> cases h
    exact ⟨by assumption, c, rfl, rfl⟩

theorem act_wait {cells : K → Cell R} {p : Prog K R} (h : act cells p = .wait) :
    ∃ k, cells k = .running ∧ ((∃ c, p = .compute k c) ∨ ∃ r c, p = .provide k r c) := by
  cases p with
  | ret r => cases h
  | panic => cases h
  | compute k' c =>
    rw [act] at h
    split at h <;> cases h
    exact ⟨k', by assumption, Or.inl ⟨c, rfl⟩⟩
  | get k c => rw [act] at h; split at h <;> cases h
  | provide k r c =>
    rw [act] at h
    split at h <;> cases h
    exact ⟨k, by assumption, Or.inr ⟨r, c, rfl⟩⟩

theorem act_done {cells : K → Cell R} {p : Prog K R} {r : R} (h : act cells p = .done r) : p = .ret r := by
  cases p with
  | ret r => cases h; rfl
  | panic => cases h
  | compute k' c => rw [act] at h; split at h <;> cases h
  | get k c => rw [act] at h; split at h <;> cases h
  | provide k r c => rw [act] at h; split at h <;> cases h

theorem act_die {cells : K → Cell R} {p : Prog K R} (h : act cells p = .die) : p = .panic := by
  cases p with
  | ret r => cases h
  | panic => rfl
  | compute k' c => rw [act] at h; split at h <;> cases h
  | get k c => rw [act] at h; split at h <;> cases h
  | provide k r c => rw [act] at h; split at h <;> cases h

/-- The cases of a step. -/
inductive Step (task : K → Prog K R) (s : State K R) (i : Nat) (t : Thread K R) : State K R → Prop
  | go (p p' : Prog K R) (ev : List (Event K R)) (hp : t.top = some p) (ha : act s.cells p = .go p' ev) :
      Step task s i t ⟨s.cells, s.threads.set i (t.setTop p'), s.log ++ ev⟩
  | call (p : Prog K R) (k : K) (hp : t.top = some p) (ha : act s.cells p = .call k) :
      Step task s i t ⟨setCell s.cells k .running, s.threads.set i ⟨(k, task k) :: t.frames, t.client⟩, s.log ++ [.began k]⟩
  | set (p p' : Prog K R) (k : K) (r : R) (hp : t.top = some p) (ha : act s.cells p = .set k r p') :
      Step task s i t ⟨setCell s.cells k (.done r), s.threads.set i (t.setTop p'), s.log ++ [.provided k r]⟩
  | finish (k : K) (r : R) (fs : List (K × Prog K R)) (hf : t.frames = (k, .ret r) :: fs) :
      Step task s i t ⟨setCell s.cells k (.done r), s.threads.set i ⟨fs, t.client⟩, s.log ++ [.completed k r]⟩
  | die (hp : t.top = some .panic) :
      Step task s i t ⟨fun x => if x ∈ t.frames.map (·.1) then .empty else s.cells x, s.threads.set i ⟨[], none⟩,
          s.log ++ t.frames.map fun f => .aborted f.1⟩

theorem step_cases {task : K → Prog K R} {s s' : State K R} {i : Nat} (h : step task s i = some s') :
    ∃ t, s.threads[i]? = some t ∧ Step task s i t s' := by
  rw [step] at h
  cases ht : s.threads[i]? with
  | none => rw [ht] at h; cases h
  | some t =>
    rw [ht] at h
    simp only at h
    refine ⟨t, rfl, ?_⟩
    cases hp : t.top with
    | none => rw [hp] at h; cases h
    | some p =>
      rw [hp] at h
      simp only at h
      cases ha : act s.cells p with
      | go p' ev => rw [ha] at h; injection h with h; rw [← h]; exact .go p p' ev hp ha
      | wait => rw [ha] at h; cases h
      | call k => rw [ha] at h; injection h with h; rw [← h]; exact .call p k hp ha
      | set k r p' => rw [ha] at h; injection h with h; rw [← h]; exact .set p p' k r hp ha
      | done r =>
        rw [ha] at h
        simp only [finish] at h
        have he := act_done ha
        subst he
        cases hf : t.frames with
        | nil => rw [hf] at h; cases h
        | cons f fs =>
          obtain ⟨k, q⟩ := f
          rw [hf] at h
          injection h with h
          rw [← h]
          rw [Thread.top, hf] at hp
          injection hp with hp
          exact .finish k r fs (by rw [hf, ← hp])
      | die =>
        rw [ha] at h
        injection h with h
        rw [← h]
        rw [act_die ha] at hp
        exact .die hp

theorem starts_append (a b : List (Event K R)) (k : K) : starts (a ++ b) k = starts a k + starts b k := List.countP_append
theorem ends_append (a b : List (Event K R)) (k : K) : ends (a ++ b) k = ends a k + ends b k := List.countP_append
theorem gaveUp_append (a b : List (Event K R)) (k : K) : gaveUp (a ++ b) k = gaveUp a k + gaveUp b k := List.countP_append
theorem gifts_append (a b : List (Event K R)) (k : K) : gifts (a ++ b) k = gifts a k + gifts b k := List.countP_append

theorem began_counts (k' k : K) : starts [Event.began (R := R) k'] k = (if k' = k then 1 else 0) ∧
    ends [Event.began (R := R) k'] k = 0 ∧ gaveUp [Event.began (R := R) k'] k = 0 ∧ gifts [Event.began (R := R) k'] k = 0 := by
  refine ⟨?_, rfl, rfl, rfl⟩
  simp [starts, List.countP_singleton]

theorem completed_counts (k' k : K) (r : R) : starts [Event.completed k' r] k = 0 ∧
    ends [Event.completed k' r] k = (if k' = k then 1 else 0) ∧ gaveUp [Event.completed k' r] k = 0 ∧
      gifts [Event.completed k' r] k = 0 := by
  refine ⟨rfl, ?_, rfl, rfl⟩
  simp [ends, List.countP_singleton]

theorem provided_counts (k' k : K) (r : R) : starts [Event.provided k' r] k = 0 ∧
    ends [Event.provided k' r] k = 0 ∧ gaveUp [Event.provided k' r] k = 0 ∧
      gifts [Event.provided k' r] k = (if k' = k then 1 else 0) := by
  refine ⟨rfl, rfl, rfl, ?_⟩
  simp [gifts, List.countP_singleton]

theorem owned_cons {s : State K R} {i : Nat} {t t' : Thread K R} (ht : s.threads[i]? = some t)
    (cells : K → Cell R) (log : List (Event K R)) (k : K) :
    (owned ⟨cells, s.threads.set i t', log⟩).count k + (t.frames.map (·.1)).count k
      = (owned s).count k + (t'.frames.map (·.1)).count k :=
  count_set (fun t : Thread K R => t.frames.map Prod.fst) s.threads i t t' ht k

theorem inv_step {task : K → Prog K R} {s s' : State K R} {i : Nat} (hi : Inv s) (h : step task s i = some s') : Inv s' := by
  obtain ⟨t, ht, hs⟩ := step_cases h
  obtain ⟨h1, h2, h3, h4⟩ := hi
  cases hs with
  | go p p' ev hp ha =>
    have hz : ∀ k, starts ev k = 0 ∧ ends ev k = 0 ∧ gaveUp ev k = 0 ∧ gifts ev k = 0 := by
      intro k
      rcases act_go ha with rfl | ⟨k', r', rfl, _⟩ <;> simp [starts, ends, gaveUp, gifts]
    refine ⟨fun k => by rw [owned_setTop ht, h1], fun k => ?_, fun k => ?_, fun e he k r hr => ?_⟩
    · have := h2 k; have := hz k
      simp only [starts_append, ends_append, gaveUp_append]; omega
    · have := h3 k; have := hz k
      simp only [ends_append, gifts_append]; omega
    · rcases List.mem_append.mp he with he | he
      · exact h4 e he k r hr
      · rcases act_go ha with rfl | ⟨k', r', rfl, hd⟩
        · cases he
        · rw [List.mem_singleton] at he
          subst he
          cases hr
          exact hd
  | call p k' hp ha =>
    obtain ⟨hem, _⟩ := act_call ha
    refine ⟨fun k => ?_, fun k => ?_, fun k => ?_, fun e he k r hr => ?_⟩
    · have e1 := owned_cons (t' := ⟨(k', task k') :: t.frames, t.client⟩) ht (setCell s.cells k' .running)
        (s.log ++ [.began k']) k
      have e2 := h1 k
      simp only [List.map_cons, List.count_cons] at e1
      by_cases hk : k = k'
      · subst hk
        simp only [setCell, if_true, runs, hem, beq_self_eq_true] at *
        omega
      · have hk' : ¬ k' = k := fun e => hk e.symm
        simp only [setCell, if_neg hk, hk', beq_iff_eq, if_false] at *
        omega
    · have e2 := h2 k
      obtain ⟨c1, c2, c3, c4⟩ := began_counts (R := R) k' k
      simp only [starts_append, ends_append, gaveUp_append, c1, c2, c3, setCell]
      by_cases hk : k = k'
      · subst hk
        rw [hem] at e2
        simp only [runs, if_true] at *
        omega
      · have hk' : ¬ k' = k := fun e => hk e.symm
        rw [if_neg hk, if_neg hk']
        omega
    · have e2 := h3 k
      obtain ⟨c1, c2, c3, c4⟩ := began_counts (R := R) k' k
      simp only [ends_append, gifts_append, c2, c4, setCell]
      by_cases hk : k = k'
      · subst hk
        rw [hem] at e2
        simp only [dones, if_true] at *
        omega
      · rw [if_neg hk]
        omega
    · rcases List.mem_append.mp he with he | he
      · have := h4 e he k r hr
        refine (setCell_ne _ _ ?_).trans this
        rintro rfl; rw [hem] at this; cases this
      · rw [List.mem_singleton] at he; subst he; cases hr
  | set p p' k' r' hp ha =>
    obtain ⟨hem, _⟩ := act_set ha
    refine ⟨fun k => ?_, fun k => ?_, fun k => ?_, fun e he k r hr => ?_⟩
    · rw [owned_setTop ht, h1]
      simp only [setCell]
      split
      · rename_i hk; rw [hk, hem]; rfl
      · rfl
    · have e2 := h2 k
      obtain ⟨c1, c2, c3, c4⟩ := provided_counts k' k r'
      simp only [starts_append, ends_append, gaveUp_append, c1, c2, c3, setCell]
      by_cases hk : k = k'
      · subst hk
        rw [hem] at e2
        simp only [runs, if_true] at *
        omega
      · rw [if_neg hk]
        omega
    · have e2 := h3 k
      obtain ⟨c1, c2, c3, c4⟩ := provided_counts k' k r'
      simp only [ends_append, gifts_append, c2, c4, setCell]
      by_cases hk : k = k'
      · subst hk
        rw [hem] at e2
        simp only [dones, if_true] at *
        omega
      · have hk' : ¬ k' = k := fun e => hk e.symm
        rw [if_neg hk, if_neg hk']
        omega
    · rcases List.mem_append.mp he with he | he
      · have := h4 e he k r hr
        refine (setCell_ne _ _ ?_).trans this
        rintro rfl; rw [hem] at this; cases this
      · rw [List.mem_singleton] at he; subst he; cases hr
        exact setCell_same _ _ _
  | finish k' r' fs hf =>
    have hrun : s.cells k' = .running := by
      have e1 := h1 k'
      have : 0 < (owned s).count k' := by
        rw [List.count_pos_iff]
        exact List.mem_flatMap.mpr ⟨t, List.mem_of_getElem? ht, by rw [hf]; simp⟩
      cases hc : s.cells k' with
      | running => rfl
      | empty => rw [hc] at e1; simp only [runs] at e1; omega
      | done r => rw [hc] at e1; simp only [runs] at e1; omega
    refine ⟨fun k => ?_, fun k => ?_, fun k => ?_, fun e he k r hr => ?_⟩
    · have e1 := owned_cons (t' := ⟨fs, t.client⟩) ht (setCell s.cells k' (.done r')) (s.log ++ [.completed k' r']) k
      have e2 := h1 k
      rw [hf] at e1
      simp only [List.map_cons, List.count_cons] at e1
      by_cases hk : k = k'
      · subst hk
        simp only [setCell, if_true, runs, hrun, beq_self_eq_true] at *
        omega
      · have hk' : ¬ k' = k := fun e => hk e.symm
        simp only [setCell, if_neg hk, hk', beq_iff_eq, if_false] at *
        omega
    · have e2 := h2 k
      obtain ⟨c1, c2, c3, c4⟩ := completed_counts k' k r'
      simp only [starts_append, ends_append, gaveUp_append, c1, c2, c3, setCell]
      by_cases hk : k = k'
      · subst hk
        rw [hrun] at e2
        simp only [runs, if_true] at *
        omega
      · have hk' : ¬ k' = k := fun e => hk e.symm
        rw [if_neg hk, if_neg hk']
        omega
    · have e2 := h3 k
      obtain ⟨c1, c2, c3, c4⟩ := completed_counts k' k r'
      simp only [ends_append, gifts_append, c2, c4, setCell]
      by_cases hk : k = k'
      · subst hk
        rw [hrun] at e2
        simp only [dones, if_true] at *
        omega
      · have hk' : ¬ k' = k := fun e => hk e.symm
        rw [if_neg hk, if_neg hk']
        omega
    · rcases List.mem_append.mp he with he | he
      · have := h4 e he k r hr
        refine (setCell_ne _ _ ?_).trans this
        rintro rfl; rw [hrun] at this; cases this
      · rw [List.mem_singleton] at he; subst he; cases hr
        exact setCell_same _ _ _
  | die hp =>
    have hrun : ∀ k ∈ t.frames.map (·.1), s.cells k = .running ∧ (t.frames.map (·.1)).count k = 1 := by
      intro k hk
      have e1 := h1 k
      have hle : (t.frames.map (·.1)).count k ≤ (owned s).count k := by
        have := count_set (fun t : Thread K R => t.frames.map (·.1)) s.threads i t ⟨[], none⟩ ht k
        simp only [List.map_nil, List.count_nil] at this
        simp only [owned]
        omega
      have hpos : 0 < (t.frames.map (·.1)).count k := List.count_pos_iff.mpr hk
      cases hc : s.cells k with
      | running => rw [hc] at e1; simp only [runs] at e1; exact ⟨rfl, by omega⟩
      | empty => rw [hc] at e1; simp only [runs] at e1; omega
      | done r => rw [hc] at e1; simp only [runs] at e1; omega
    have hcount : ∀ (fs : List (K × Prog K R)) k, gaveUp (fs.map fun f => Event.aborted (R := R) f.1) k = (fs.map (·.1)).count k := by
      intro fs k
      induction fs with
      | nil => rfl
      | cons f fs ih =>
        simp only [List.map_cons, gaveUp, List.countP_cons, List.count_cons] at *
        rw [ih]
        simp
    have hzero : ∀ (fs : List (K × Prog K R)) k, starts (fs.map fun f => Event.aborted (R := R) f.1) k = 0 ∧
        ends (fs.map fun f => Event.aborted (R := R) f.1) k = 0 ∧ gifts (fs.map fun f => Event.aborted (R := R) f.1) k = 0 := by
      intro fs k
      refine ⟨?_, ?_, ?_⟩ <;> (simp only [starts, ends, gifts]; rw [List.countP_eq_zero]; intro e he; simp only [List.mem_map] at he; obtain ⟨_, _, rfl⟩ := he; simp)
    refine ⟨fun k => ?_, fun k => ?_, fun k => ?_, fun e he k r hr => ?_⟩
    · have e1 := owned_cons (t' := ⟨[], none⟩) ht (fun x => if x ∈ t.frames.map (·.1) then .empty else s.cells x)
        (s.log ++ t.frames.map fun f => .aborted f.1) k
      have e2 := h1 k
      simp only [List.map_nil, List.count_nil] at e1
      show _ = runs (if k ∈ t.frames.map (·.1) then .empty else s.cells k)
      by_cases hk : k ∈ t.frames.map (·.1)
      · rw [if_pos hk]
        obtain ⟨hr, hc⟩ := hrun k hk
        rw [hr] at e2
        simp only [runs] at *
        omega
      · rw [if_neg hk]
        have := List.count_eq_zero.mpr hk
        omega
    · have e2 := h2 k
      have hz := hzero t.frames k
      have hc := hcount t.frames k
      show _ = _ + _ + runs (if k ∈ t.frames.map (·.1) then .empty else s.cells k)
      simp only [starts_append, ends_append, gaveUp_append]
      by_cases hk : k ∈ t.frames.map (·.1)
      · rw [if_pos hk]
        obtain ⟨hr, hc'⟩ := hrun k hk
        rw [hr] at e2
        simp only [runs] at *
        omega
      · rw [if_neg hk]
        have := List.count_eq_zero.mpr hk
        omega
    · have e2 := h3 k
      have hz := hzero t.frames k
      show _ = dones (if k ∈ t.frames.map (·.1) then .empty else s.cells k)
      simp only [ends_append, gifts_append]
      by_cases hk : k ∈ t.frames.map (·.1)
      · rw [if_pos hk]
        obtain ⟨hr, hc'⟩ := hrun k hk
        rw [hr] at e2
        simp only [dones] at *
        omega
      · rw [if_neg hk]; omega
    · rcases List.mem_append.mp he with he | he
      · have := h4 e he k r hr
        show (if k ∈ t.frames.map (·.1) then Cell.empty else s.cells k) = _
        rw [if_neg]
        · exact this
        · intro hk
          rw [(hrun k hk).1] at this; cases this
      · obtain ⟨_, _, rfl⟩ := List.mem_map.mp he
        cases hr

theorem reachable_inv {task : K → Prog K R} {clients : List (Prog K R)} {s : State K R}
    (h : Reachable task clients s) : Inv s := by
  induction h with
  | init =>
    refine ⟨fun k => ?_, fun k => rfl, fun k => rfl, fun e he => by cases he⟩
    show (owned (State.init clients)).count k = 0
    rw [List.count_eq_zero]
    intro hk
    obtain ⟨t, ht, hk⟩ := List.mem_flatMap.mp hk
    obtain ⟨p, _, rfl⟩ := List.mem_map.mp ht
    cases hk
  | step _ hs ih => exact inv_step ih hs

end Tinymist.Compute
