import Verif.Lemmas.Interned

/-!
# C137: interned objects are equal when their values are
-/

namespace Tinymist.Interned

open Spec

variable {V : Type} [DecidableEq V]

/-- **C137.** After any steps of any threads a handle in use reads the value it was made from: its object is still there. -/
theorem reads_value (ops : List (Op V)) {i : Nat} {h : Handle V} (hi : InUse (run ops State.empty) i h) :
    Reads (run ops State.empty) h :=
  (inv_run ops inv_empty).held h (List.mem_of_getElem? hi.1) (by rw [hi.2]; decide)

/-- **C137.** After any steps of any threads two handles in use point to the same object exactly if they were made from the
same value. -/
theorem equal_iff_same (ops : List (Op V)) {i j : Nat} {h k : Handle V} (hi : InUse (run ops State.empty) i h)
    (hj : InUse (run ops State.empty) j k) : h.addr = k.addr ↔ h.value = k.value := by
  have hs := inv_run ops (inv_empty (V := V))
  constructor
  · intro ha
    obtain ⟨n, hn⟩ := reads_value ops hi
    obtain ⟨m, hm⟩ := reads_value ops hj
    rw [ha, hm] at hn
    exact (Prod.mk.inj (Option.some.inj hn)).1.symm
  · intro hv
    have h1 := hs.found h (List.mem_of_getElem? hi.1) (.inl hi.2)
    have h2 := hs.found k (List.mem_of_getElem? hj.1) (.inl hj.2)
    rw [hv, h2] at h1
    exact (Option.some.inj h1).symm

/-- **C137.** No schedule reaches the `unreachable!()` of `drop_slow`, and no reference is given back to an object that is
not there any more. -/
theorem never_panics (ops : List (Op V)) :
    (run ops (State.empty : State V)).panicked = false ∧ (run ops (State.empty : State V)).underflow = false :=
  ⟨(inv_run ops inv_empty).calm, (inv_run ops inv_empty).sound⟩

/-- **C137.** The statistics count the objects in the map. -/
theorem stats_exact (ops : List (Op V)) : (run ops (State.empty : State V)).inserted
    = (run ops (State.empty : State V)).removed + (run ops (State.empty : State V)).map.length :=
  (inv_run ops inv_empty).stats

/-- **C137.** A value can always be interned, and the new handle is in use, as are the others. -/
theorem intern_gives (s : State V) (v : V) {a : Nat} (ha : s.mem a = none) :
    (∃ b, InUse (step s (.intern v a)) s.handles.length ⟨.live, b, v⟩)
      ∧ ∀ i h, InUse s i h → InUse (step s (.intern v a)) i h := by
  have old : ∀ (k : Handle V) (i : Nat) (h : Handle V), s.handles[i]? = some h → (s.handles ++ [k])[i]? = some h := by
    intro k i h hi
    rw [List.getElem?_append_left (List.getElem?_eq_some_iff.1 hi).1]
    exact hi
  simp only [step]
  cases hl : s.map.lookup v with
  | some b =>
    exact ⟨⟨b, List.getElem?_concat_length, rfl⟩, fun i h hi => ⟨old _ i h hi.1, hi.2⟩⟩
  | none =>
    simp only
    rw [if_neg (by rw [ha]; exact Bool.noConfusion)]
    exact ⟨⟨a, List.getElem?_concat_length, rfl⟩, fun i h hi => ⟨old _ i h hi.1, hi.2⟩⟩

/-- **C137.** A copy of a handle in use is a handle in use of the same value. -/
theorem clone_gives (s : State V) {i : Nat} {h : Handle V} (hi : InUse s i h) :
    InUse (step s (.clone i)) s.handles.length h ∧ ∀ j k, InUse s j k → InUse (step s (.clone i)) j k := by
  simp only [step, hi.1]
  rw [if_pos hi.2]
  refine ⟨⟨?_, hi.2⟩, fun j k hj => ⟨?_, hj.2⟩⟩
  · show (s.handles ++ [⟨.live, h.addr, h.value⟩])[s.handles.length]? = some h
    rw [List.getElem?_concat_length, ← hi.2]
  · show (s.handles ++ [⟨.live, h.addr, h.value⟩])[j]? = some k
    rw [List.getElem?_append_left (List.getElem?_eq_some_iff.1 hj.1).1]
    exact hj.1

/-- **C137.** The steps of a thread leave the handles of the others in use. -/
theorem others_stay (s : State V) {i j : Nat} {h : Handle V} (hij : i ≠ j) (hj : InUse s j h) :
    InUse (step s (.drop i)) j h ∧ InUse (step s (.dropSlow i)) j h ∧ InUse (step s (.release i)) j h := by
  have key : ∀ (t : State V) k p, t.handles = s.handles → InUse (moveTo t i k p) j h := by
    intro t k p ht
    refine ⟨?_, hj.2⟩
    show (t.handles.set i { k with phase := p })[j]? = some h
    rw [List.getElem?_set_ne hij, ht]
    exact hj.1
  refine ⟨?_, ?_, ?_⟩
  · simp only [step]
    cases s.handles[i]? with
    | none => exact hj
    | some k =>
      simp only
      by_cases hp : k.phase = .live
      · rw [if_pos hp]
        by_cases h2 : countOf s.mem k.addr = 2
        · rw [if_pos h2]; exact key _ _ _ rfl
        · rw [if_neg h2]; exact key _ _ _ rfl
      · rw [if_neg hp]; exact hj
  · simp only [step]
    cases s.handles[i]? with
    | none => exact hj
    | some k =>
      simp only
      by_cases hp : k.phase = .slow
      · rw [if_pos hp]
        by_cases h2 : countOf s.mem k.addr = 2
        · rw [if_neg (fun h => h h2)]
          cases s.mem k.addr with
          | none => exact hj
          | some x =>
            simp only
            cases s.map.lookup x.1 with
            | none => exact hj
            | some b => exact key _ _ _ rfl
        · rw [if_pos h2]; exact key _ _ _ rfl
      · rw [if_neg hp]; exact hj
  · simp only [step]
    cases s.handles[i]? with
    | none => exact hj
    | some k =>
      simp only
      by_cases hp : k.phase = .releasing
      · rw [if_pos hp]; exact key _ _ _ rfl
      · rw [if_neg hp]; exact hj

omit [DecidableEq V] in
theorem set_get {l : List (Handle V)} {i : Nat} {h k : Handle V} (hi : l[i]? = some h) : (l.set i k)[i]? = some k := by
  rw [List.getElem?_set_self (List.getElem?_eq_some_iff.1 hi).1]

/-- A whole drop of a handle that is the last one. -/
theorem whole_last {s : State V} (hs : Inv s) {i : Nat} {h : Handle V} (hi : InUse s i h)
    (h2 : s.mem h.addr = some (h.value, 2)) :
    (run (dropWhole i) s).map = s.map.filter (fun e => e.1 ≠ h.value)
      ∧ (run (dropWhole i) s).mem h.addr = none
      ∧ (run (dropWhole i) s).handles = s.handles.set i { h with phase := .gone } := by
  have hl := hs.found h (List.mem_of_getElem? hi.1) (.inl hi.2)
  have hc : countOf s.mem h.addr = 2 := by unfold countOf; rw [h2]; rfl
  have e1 : step s (.drop i) = moveTo s i h .slow := by
    simp only [step, hi.1]
    rw [if_pos hi.2, if_pos hc]
  have e2 : step (moveTo s i h .slow) (.dropSlow i) = moveTo { s with
                mem := decr s.mem h.addr
                map := s.map.filter fun e => e.1 ≠ h.value
                removed := s.removed + 1 } i h .releasing := by
    have g : (moveTo s i h .slow).handles[i]? = some { h with phase := .slow } := set_get hi.1
    simp only [step, g]
    rw [if_pos trivial, if_neg (fun h' => h' hc)]
    have hm : (moveTo s i h .slow).mem h.addr = some (h.value, 2) := h2
    rw [hm]
    simp only
    have hl' : (moveTo s i h .slow).map.lookup h.value = some h.addr := hl
    rw [hl']
    simp only [moveTo, List.set_set]
  have e3 : run (dropWhole i) s = step (moveTo { s with
                mem := decr s.mem h.addr
                map := s.map.filter fun e => e.1 ≠ h.value
                removed := s.removed + 1 } i h .releasing) (.release i) := by
    show step (step (step s (.drop i)) (.dropSlow i)) (.release i) = _
    rw [e1, e2]
  rw [e3]
  have g : (moveTo { s with
                mem := decr s.mem h.addr
                map := s.map.filter fun e => e.1 ≠ h.value
                removed := s.removed + 1 } i h .releasing).handles[i]? = some { h with phase := .releasing } :=
    set_get hi.1
  simp only [step, g]
  rw [if_pos trivial]
  refine ⟨rfl, ?_, ?_⟩
  · show decr (decr s.mem h.addr) h.addr h.addr = none
    simp [decr, write, h2]
  · simp only [moveTo, List.set_set]

/-- A whole drop of a handle that is not the last one. -/
theorem whole_shared {s : State V} {i : Nat} {h : Handle V} (hi : InUse s i h) (h2 : countOf s.mem h.addr ≠ 2) :
    (run (dropWhole i) s).map = s.map
      ∧ (run (dropWhole i) s).handles = s.handles.set i { h with phase := .gone } := by
  have e1 : step s (.drop i) = moveTo s i h .releasing := by
    simp only [step, hi.1]
    rw [if_pos hi.2, if_neg h2]
  have g : (moveTo s i h .releasing).handles[i]? = some { h with phase := .releasing } := set_get hi.1
  have e2 : step (moveTo s i h .releasing) (.dropSlow i) = moveTo s i h .releasing := by
    simp only [step, g]
    rw [if_neg (by intro h; cases h)]
  have e3 : run (dropWhole i) s = step (moveTo s i h .releasing) (.release i) := by
    show step (step (step s (.drop i)) (.dropSlow i)) (.release i) = _
    rw [e1, e2]
  rw [e3]
  simp only [step, g]
  rw [if_pos trivial]
  exact ⟨rfl, by simp only [moveTo, List.set_set]⟩

omit [DecidableEq V] in
/-- The only handle that has a reference to an object. -/
theorem owners_alone {l : List (Handle V)} {i : Nat} {h : Handle V} (hi : l[i]? = some h) (hp : h.phase ≠ .gone)
    (alone : ∀ j k, l[j]? = some k → k.phase ≠ .gone → k.addr = h.addr → j = i) : owners l h.addr = 1 := by
  have e := owners_set hi hp .gone h.addr
  simp only [if_true, ne_eq, not_true_eq_false, false_and, if_false] at e
  have : owners (l.set i { h with phase := Phase.gone }) h.addr = 0 := by
    unfold owners
    rw [List.countP_eq_zero]
    intro k hk kp
    simp only [Bool.and_eq_true, decide_eq_true_eq] at kp
    rcases mem_set hk with hk | ⟨j, hj, hk⟩
    · subst hk; exact kp.1 rfl
    · exact hj (alone j k hk kp.1 kp.2)
  omega

/-- **C137.** When the last handle of a value is dropped and no thread interferes, the value leaves the map and its memory is
freed, whatever happened before. -/
theorem last_drop_removes (ops : List (Op V)) {i : Nat} {h : Handle V} (hi : InUse (run ops State.empty) i h)
    (alone : ∀ (j : Nat) k, (run ops State.empty).handles[j]? = some k → k.phase ≠ .gone → k.value = h.value → j = i) :
    (run (ops ++ dropWhole i) State.empty).map.lookup h.value = none
      ∧ (run (ops ++ dropWhole i) State.empty).mem h.addr = none := by
  have hs := inv_run ops (inv_empty (V := V))
  have e : run (ops ++ dropWhole i) State.empty = run (dropWhole i) (run ops State.empty) := List.foldl_append
  rw [e]
  have hng : h.phase ≠ .gone := by rw [hi.2]; decide
  have hmem := List.mem_of_getElem? hi.1
  obtain ⟨n, hn⟩ := hs.held h hmem hng
  have h1 := owners_alone hi.1 hng (fun j k hj kp ka => by
    obtain ⟨m, hm⟩ := hs.held k (List.mem_of_getElem? hj) kp
    rw [ka, hn] at hm
    exact alone j k hj kp (Prod.mk.inj (Option.some.inj hm)).1.symm)
  have hr := (hs.refs _ _ _ hn).2
  rw [if_pos (hs.found h hmem (.inl hi.2)), h1] at hr
  subst hr
  obtain ⟨w1, w2, _⟩ := whole_last hs hi hn
  refine ⟨?_, w2⟩
  rw [w1, lookup_filter, if_pos rfl]

/-- What holds when no drops overlap. -/
structure Tidy (s : State V) : Prop where
  inv : Inv s
  whole : ∀ h ∈ s.handles, h.phase = .live ∨ h.phase = .gone
  used : ∀ v a, s.map.lookup v = some a → ∃ h ∈ s.handles, h.phase = .live ∧ h.value = v

theorem tidy_append {s : State V} (hs : Tidy s) {t : State V} (ht : Inv t) {v : V} {a : Nat}
    (hh : t.handles = s.handles ++ [⟨.live, a, v⟩])
    (hm : ∀ w b, t.map.lookup w = some b → w = v ∨ s.map.lookup w = some b) : Tidy t where
  inv := ht
  whole := by
    intro h hmem
    rw [hh] at hmem
    rcases List.mem_append.1 hmem with hmem | hmem
    · exact hs.whole h hmem
    · rw [List.mem_singleton] at hmem
      subst hmem
      exact .inl rfl
  used := by
    intro w b hw
    rw [hh]
    rcases hm w b hw with hw | hw
    · exact ⟨_, List.mem_append_right _ (List.mem_singleton.2 rfl), rfl, hw.symm⟩
    · obtain ⟨h, h1, h2⟩ := hs.used w b hw
      exact ⟨h, List.mem_append_left _ h1, h2⟩

theorem tidy_intern {s : State V} (hs : Tidy s) (v : V) (a : Nat) : Tidy (step s (.intern v a)) := by
  have hi := inv_step hs.inv (.intern v a)
  revert hi
  simp only [step]
  cases hl : s.map.lookup v with
  | some b => exact fun hi => tidy_append hs hi rfl (fun w b h => .inr h)
  | none =>
    simp only
    by_cases ha : (s.mem a).isSome
    · rw [if_pos ha]; exact fun _ => hs
    · rw [if_neg ha]
      intro hi
      refine tidy_append hs hi rfl (fun w b h => ?_)
      have h : ((v, a) :: s.map).lookup w = some b := h
      rw [lookup_cons'] at h
      by_cases hw : w = v
      · exact .inl hw
      · rw [if_neg hw] at h; exact .inr h

theorem tidy_clone {s : State V} (hs : Tidy s) (i : Nat) : Tidy (step s (.clone i)) := by
  have hi := inv_step hs.inv (.clone i)
  revert hi
  simp only [step]
  cases hl : s.handles[i]? with
  | none => exact fun _ => hs
  | some h =>
    simp only
    by_cases hp : h.phase = .live
    · rw [if_pos hp]
      exact fun hi => tidy_append hs hi rfl (fun w b h => .inr h)
    · rw [if_neg hp]; exact fun _ => hs

theorem tidy_drop {s : State V} (hs : Tidy s) (i : Nat) : Tidy (run (dropWhole i) s) := by
  have hinv := inv_run (dropWhole i) hs.inv
  have idle : ∀ (h' : ∀ h, s.handles[i]? = some h → h.phase = .gone), run (dropWhole i) s = s := by
    intro h'
    have e1 : step s (.drop i) = s := by
      simp only [step]
      cases hl : s.handles[i]? with
      | none => rfl
      | some h => simp only; rw [if_neg (by rw [h' h hl]; intro h; cases h)]
    have e2 : step s (.dropSlow i) = s := by
      simp only [step]
      cases hl : s.handles[i]? with
      | none => rfl
      | some h => simp only; rw [if_neg (by rw [h' h hl]; intro h; cases h)]
    have e3 : step s (.release i) = s := by
      simp only [step]
      cases hl : s.handles[i]? with
      | none => rfl
      | some h => simp only; rw [if_neg (by rw [h' h hl]; intro h; cases h)]
    show step (step (step s (.drop i)) (.dropSlow i)) (.release i) = s
    rw [e1, e2, e3]
  cases hl : s.handles[i]? with
  | none =>
    rw [idle (fun h h' => by rw [hl] at h'; cases h')]
    exact hs
  | some h =>
    rcases hs.whole h (List.mem_of_getElem? hl) with hp | hp
    case inr =>
      rw [idle (fun k h' => by rw [hl] at h'; cases h'; exact hp)]
      exact hs
    have hmem := List.mem_of_getElem? hl
    have hng : h.phase ≠ .gone := by rw [hp]; decide
    obtain ⟨n, hn⟩ := hs.inv.held h hmem hng
    have keep : ∀ k ∈ s.handles.set i { h with phase := .gone }, k.phase = .live ∨ k.phase = .gone := by
      intro k hk
      rcases mem_set hk with hk | ⟨j, _, hj⟩
      · subst hk; exact .inr rfl
      · exact hs.whole k (List.mem_of_getElem? hj)
    have stay : ∀ j (k : Handle V), j ≠ i → s.handles[j]? = some k → k ∈ s.handles.set i { h with phase := .gone } := by
      intro j k hj hk
      apply List.mem_of_getElem? (i := j)
      rw [List.getElem?_set_ne (fun h => hj h.symm)]
      exact hk
    by_cases h2 : n = 2
    · subst h2
      obtain ⟨w1, _, w3⟩ := whole_last hs.inv ⟨hl, hp⟩ hn
      refine ⟨hinv, by rw [w3]; exact keep, ?_⟩
      intro v a hv
      rw [w1, lookup_filter] at hv
      by_cases hvh : v = h.value
      · rw [if_pos hvh] at hv; cases hv
      · rw [if_neg hvh] at hv
        obtain ⟨k, k1, k2, k3⟩ := hs.used v a hv
        obtain ⟨j, hj⟩ := List.mem_iff_getElem?.1 k1
        rw [w3]
        refine ⟨k, stay j k ?_ hj, k2, k3⟩
        intro hji
        rw [hji, hl] at hj
        cases hj
        exact hvh k3.symm
    · obtain ⟨w1, w3⟩ := whole_shared ⟨hl, hp⟩ (by unfold countOf; rw [hn]; exact h2)
      refine ⟨hinv, by rw [w3]; exact keep, ?_⟩
      intro v a hv
      rw [w1] at hv
      rw [w3]
      by_cases hvh : v = h.value
      · -- another handle is there
        apply Classical.byContradiction
        intro hno
        apply h2
        have h1 := owners_alone hl hng (fun j k hj kp ka => by
          apply Classical.byContradiction
          intro hji
          obtain ⟨m, hm⟩ := hs.inv.held k (List.mem_of_getElem? hj) kp
          rw [ka, hn] at hm
          have hkv := (Prod.mk.inj (Option.some.inj hm)).1
          rcases hs.whole k (List.mem_of_getElem? hj) with kl | kg
          · exact hno ⟨k, stay j k hji hj, kl, by rw [hvh, hkv]⟩
          · exact kp kg)
        have hr := (hs.inv.refs _ _ _ hn).2
        rw [if_pos (hs.inv.found h hmem (.inl hp)), h1] at hr
        exact hr
      · obtain ⟨k, k1, k2, k3⟩ := hs.used v a hv
        obtain ⟨j, hj⟩ := List.mem_iff_getElem?.1 k1
        refine ⟨k, stay j k ?_ hj, k2, k3⟩
        intro hji
        rw [hji, hl] at hj
        cases hj
        exact hvh k3.symm

theorem tidy_run {ops : List (Op V)} (hops : Sequential ops) : ∀ {s : State V}, Tidy s → Tidy (run ops s) := by
  induction hops with
  | nil => exact fun h => h
  | intern v a _ ih => exact fun h => ih (tidy_intern h v a)
  | clone i _ ih => exact fun h => ih (tidy_clone h i)
  | drop i _ ih => exact fun h => ih (tidy_drop h i)

/-- **C137.** As long as no drop overlaps with another thread, the map holds exactly the values that have a handle in use.
Missing: drops that overlap, see `entry_left`. -/
theorem no_entry_left_partial {ops : List (Op V)} (hops : Sequential ops) (v : V) :
    (∃ a, (run ops State.empty).map.lookup v = some a) ↔ ∃ i h, InUse (run ops State.empty) i h ∧ h.value = v := by
  have hs : Tidy (run ops (State.empty : State V)) :=
    tidy_run hops ⟨inv_empty, fun _ h => (by cases h), fun _ _ h => (by cases h)⟩
  constructor
  · rintro ⟨a, ha⟩
    obtain ⟨h, h1, h2, h3⟩ := hs.used v a ha
    obtain ⟨i, hi⟩ := List.mem_iff_getElem?.1 h1
    exact ⟨i, h, ⟨hi, h2⟩, h3⟩
  · rintro ⟨i, h, hi, rfl⟩
    exact ⟨_, hs.inv.found h (List.mem_of_getElem? hi.1) (.inl hi.2)⟩

/-- **C137.** But when the last two handles of a value are dropped at the same time, each drop sees the reference of the other:
the value stays in the map, and in memory, with no handle left. -/
theorem entry_left (v : V) (a : Nat) :
    let s := run [.intern v a, .clone 0, .drop 0, .drop 1, .release 0, .release 1] (State.empty : State V)
    s.map.lookup v = some a ∧ s.mem a = some (v, 1) ∧ ∀ h ∈ s.handles, h.phase = .gone := by
  simp [run, step, State.empty, moveTo, write, incr, decr, countOf]

/-- A handle that is dropped may be the last one for a moment only: another thread interns the value before the lock is
taken, and its handle stays good. -/
example : let s := run [.intern 7 100, .drop 0, .intern 7 200, .dropSlow 0, .release 0] (State.empty : State Nat)
    s.map = [(7, 100)] ∧ s.mem 100 = some (7, 2) ∧ s.handles.map Handle.phase = [.gone, .live] := by
  simp [run, step, State.empty, moveTo, write, incr, decr, countOf, List.lookup]

/-- While a removed object is being freed the value is interned anew, at another place. -/
example : let s := run [.intern 7 100, .drop 0, .dropSlow 0, .intern 7 100, .intern 7 200, .release 0] (State.empty : State Nat)
    s.map = [(7, 200)] ∧ s.mem 100 = none ∧ s.mem 200 = some (7, 2) ∧ s.handles.map Handle.phase = [.gone, .live] := by
  simp [run, step, State.empty, moveTo, write, decr, countOf, List.lookup]

end Tinymist.Interned
