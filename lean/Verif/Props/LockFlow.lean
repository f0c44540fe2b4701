import Verif.Spec.LockFlow

/-!
# C141: several processes at one lock file
-/
namespace Tinymist.LockFlow
open Spec

variable {kind : Nat → Kind} {works : Bool} {f0 : Option Bytes}

def IsReader (k : Kind) : Prop := match k with | .reader => True | .writer _ => False

theorem setPhase_self (s : State) (i : Nat) (p : Phase) : (setPhase s i p).phase i = p := by simp [setPhase]

theorem setPhase_ne (s : State) {i j : Nat} (p : Phase) (h : j ≠ i) : (setPhase s i p).phase j = s.phase j := by
  simp [setPhase, h]

/-- What holds while locks work and no process was killed while it wrote. -/
structure Inv (kind : Nat → Kind) (f0 : Option Bytes) (order : List Nat) (s : State) : Prop where
  alone : ∀ i j, i ≠ j → (s.phase i).holds = true → (s.phase j).holds = true → IsReader (kind i) ∧ IsReader (kind j)
  settled : NoneWriting s → s.file.getD [] = after kind f0 order
  reading : ∀ i acc, s.phase i = .reading acc → acc <+: after kind f0 order
  holding : ∀ i d, s.phase i = .holding d → d = after kind f0 order
  writing : ∀ i new pos, s.phase i = .writing new pos → ∃ u, kind i = .writer u ∧
    u (after kind f0 order) = some new ∧ s.file = some (new.take pos) ∧ pos ≤ new.length
  over : ∀ i d, s.phase i = .over d → kind i = .reader → ∃ p, p <+: order ∧ d = after kind f0 p

/-- A change of one process that leaves the file alone, and does not finish an update. -/
theorem Inv.quiet {order : List Nat} {s : State} (h : Inv kind f0 order s) {i : Nat} {p : Phase}
    (hw : ∀ new pos, s.phase i ≠ .writing new pos)
    (hold : p.holds = true → (s.phase i).holds = true ∨
      ∀ j, j ≠ i → (s.phase j).holds = true → IsReader (kind i) ∧ IsReader (kind j))
    (h1 : ∀ acc, p = .reading acc → acc <+: after kind f0 order)
    (h2 : ∀ d, p = .holding d → d = after kind f0 order)
    (h3 : ∀ new pos, p ≠ .writing new pos)
    (h4 : ∀ d, p = .over d → kind i = .reader → ∃ q, q <+: order ∧ d = after kind f0 q) :
    Inv kind f0 order (setPhase s i p) := by
  have nw : NoneWriting (setPhase s i p) → NoneWriting s := by
    intro hn j new pos hj
    by_cases e : j = i
    · subst e; exact hw new pos hj
    · exact hn j new pos (by rw [setPhase_ne _ _ e]; exact hj)
  refine ⟨?_, fun hn => h.settled (nw hn), ?_, ?_, ?_, ?_⟩
  · intro a b hab ha hb
    by_cases ea : a = i
    · subst ea
      rw [setPhase_self] at ha
      rw [setPhase_ne _ _ (Ne.symm hab)] at hb
      rcases hold ha with h' | h'
      · exact h.alone a b hab h' hb
      · exact h' b (Ne.symm hab) hb
    · rw [setPhase_ne _ _ ea] at ha
      by_cases eb : b = i
      · subst eb
        rw [setPhase_self] at hb
        rcases hold hb with h' | h'
        · exact h.alone a b hab ha h'
        · exact (h' a hab ha).symm
      · rw [setPhase_ne _ _ eb] at hb
        exact h.alone a b hab ha hb
  · intro j acc hj
    by_cases e : j = i
    · subst e; rw [setPhase_self] at hj; exact h1 acc hj
    · rw [setPhase_ne _ _ e] at hj; exact h.reading j acc hj
  · intro j d hj
    by_cases e : j = i
    · subst e; rw [setPhase_self] at hj; exact h2 d hj
    · rw [setPhase_ne _ _ e] at hj; exact h.holding j d hj
  · intro j new pos hj
    by_cases e : j = i
    · subst e; rw [setPhase_self] at hj; exact absurd hj (h3 new pos)
    · rw [setPhase_ne _ _ e] at hj; exact h.writing j new pos hj
  · intro j d hj hk
    by_cases e : j = i
    · subst e; rw [setPhase_self] at hj; exact h4 d hj hk
    · rw [setPhase_ne _ _ e] at hj; exact h.over j d hj hk

/-- Nobody writes while somebody else holds the lock. -/
theorem Inv.noneWriting {order : List Nat} {s : State} (h : Inv kind f0 order s) {i : Nat}
    (hh : (s.phase i).holds = true) (hi : ∀ new pos, s.phase i ≠ .writing new pos) : NoneWriting s := by
  intro j new pos hj
  by_cases e : j = i
  · subst e; exact hi new pos hj
  · have := (h.alone j i e (by rw [hj]; rfl) hh).1
    obtain ⟨u, hk, _⟩ := h.writing j new pos hj
    rw [hk] at this
    exact this

theorem finished_append (es : List Event) (e : Event) :
    finished kind (es ++ [e]) = finished kind es ++ finished kind [e] := by
  rw [finished, List.filterMap_append]; rfl

theorem after_append (a : List Nat) (i : Nat) :
    after kind f0 (a ++ [i]) = (match kind i with | .writer u => applied u (after kind f0 a) | .reader => after kind f0 a) := by
  rw [after, List.foldl_append]; rfl

theorem writeAt_end {new : Bytes} {pos n : Nat} (h : pos + n ≤ new.length) :
    writeAt (new.take pos) pos ((new.drop pos).take n) = new.take (pos + n) := by
  have hl : (new.take pos).length = pos := by rw [List.length_take]; omega
  rw [writeAt, List.take_take, Nat.min_self, hl, Nat.sub_self, List.replicate_zero, List.append_nil,
    List.drop_of_length_le (l := new.take pos) (by rw [hl]; omega), List.append_nil, ← List.take_add]

/-- A finished update: the order grows by one. -/
theorem Inv.finish {order : List Nat} {s : State} (h : Inv kind f0 order s) {i : Nat} {u : Bytes → Option Bytes}
    {d : Bytes} (hk : kind i = .writer u) (hh : (s.phase i).holds = true)
    (hf : s.file.getD [] = applied u (after kind f0 order)) : Inv kind f0 (order ++ [i]) (setPhase s i (.over d)) := by
  have hothers : ∀ j, j ≠ i → (s.phase j).holds = false := by
    intro j hj
    cases hb : (s.phase j).holds with
    | false => rfl
    | true =>
      have := (h.alone j i hj hb hh).2
      rw [hk] at this
      exact this.elim
  have ha : after kind f0 (order ++ [i]) = applied u (after kind f0 order) := by rw [after_append, hk]
  have hph : ∀ j, j ≠ i → ∀ p, s.phase j = p → p.holds = false := fun j hj p hp => by rw [← hp]; exact hothers j hj
  refine ⟨?_, fun _ => by rw [ha]; exact hf, ?_, ?_, ?_, ?_⟩
  · intro a b hab hha hhb
    exfalso
    by_cases ea : a = i
    · subst ea; rw [setPhase_self] at hha; cases hha
    · rw [setPhase_ne _ _ ea, hothers a ea] at hha; cases hha
  · intro j acc hj
    by_cases e : j = i
    · subst e; rw [setPhase_self] at hj; cases hj
    · rw [setPhase_ne _ _ e] at hj; cases hph j e _ hj
  · intro j d hj
    by_cases e : j = i
    · subst e; rw [setPhase_self] at hj; cases hj
    · rw [setPhase_ne _ _ e] at hj; cases hph j e _ hj
  · intro j new pos hj
    by_cases e : j = i
    · subst e; rw [setPhase_self] at hj; cases hj
    · rw [setPhase_ne _ _ e] at hj; cases hph j e _ hj
  · intro j d' hj hkj
    by_cases e : j = i
    · subst e; rw [hk] at hkj; cases hkj
    · rw [setPhase_ne _ _ e] at hj
      obtain ⟨p, hp, hd⟩ := h.over j d' hj hkj
      exact ⟨p, hp.trans (List.prefix_append _ _), hd⟩

/-- The processes that do not hold a lock have nothing to do with the contents. -/
theorem Inv.refile {order : List Nat} {s t : State} (h : Inv kind f0 order s) (hp : t.phase = s.phase)
    (hf : t.file.getD [] = s.file.getD []) (hw : ∀ b, s.file = some b → t.file = some b) : Inv kind f0 order t := by
  refine ⟨by rw [hp]; exact h.alone, fun hn => ?_, by rw [hp]; exact h.reading, by rw [hp]; exact h.holding, ?_,
    by rw [hp]; exact h.over⟩
  · rw [hf]; exact h.settled (fun i new pos => by have := hn i new pos; rwa [hp] at this)
  · intro i new pos hi
    rw [hp] at hi
    obtain ⟨u, h1, h2, h3, h4⟩ := h.writing i new pos hi
    exact ⟨u, h1, h2, hw _ h3, h4⟩

theorem Inv.step {es : List Event} {s t : State} {e : Event} (h : Inv kind f0 (finished kind es) s)
    (hs : Step kind true s e t) (ht : NoneTorn t) : Inv kind f0 (finished kind (es ++ [e])) t := by
  rw [finished_append]
  cases hs with
  | @openWriter i u h1 h2 =>
    simp only [finished, List.filterMap_cons, List.filterMap_nil, List.append_nil]
    have hq : Inv kind f0 (finished kind es) (setPhase s i .opened) :=
      h.quiet (by rw [h1]; simp) (by simp [Phase.holds]) (by simp) (by simp) (by simp) (by simp)
    exact hq.refile rfl (by simp [setPhase]) (by
      intro b hb
      have : s.file = some b := hb
      simp [this])
  | @openReader i b h1 h2 h3 =>
    simp only [finished, List.filterMap_cons, List.filterMap_nil, List.append_nil]
    exact h.quiet (by rw [h1]; simp) (by simp [Phase.holds]) (by simp) (by simp) (by simp) (by simp)
  | @openFails i h1 h2 h3 =>
    simp only [finished, List.filterMap_cons, List.filterMap_nil, List.append_nil]
    exact h.quiet (by rw [h1]; simp) (by simp [Phase.holds]) (by simp) (by simp) (by simp) (by simp)
  | @lock i h1 h2 =>
    simp only [finished, List.filterMap_cons, List.filterMap_nil, List.append_nil]
    refine h.quiet (by rw [h1]; simp) (fun _ => Or.inr fun j _ hj => h2 rfl j hj) ?_ (by simp) (by simp) (by simp)
    intro acc e
    cases e
    exact List.nil_prefix
  | @readMore i n acc b h1 h2 h3 h4 =>
    simp only [finished, List.filterMap_cons, List.filterMap_nil, List.append_nil]
    have hh : (s.phase i).holds = true := by rw [h1]; rfl
    have hb : b = after kind f0 (finished kind es) := by
      have := h.settled (h.noneWriting hh (by rw [h1]; simp))
      rw [h2] at this
      exact this
    refine h.quiet (by rw [h1]; simp) (fun _ => Or.inl hh) ?_ (by simp) (by simp) (by simp)
    intro acc' e
    cases e
    have hp := h.reading i acc h1
    rw [← hb] at hp ⊢
    obtain ⟨r, rfl⟩ := hp
    rw [List.drop_left]
    exact (List.prefix_append_right_inj acc).mpr (List.take_prefix n r)
  | @readEnd i acc b h1 h2 h3 =>
    simp only [finished, List.filterMap_cons, List.filterMap_nil, List.append_nil]
    have hh : (s.phase i).holds = true := by rw [h1]; rfl
    have hb : b = after kind f0 (finished kind es) := by
      have := h.settled (h.noneWriting hh (by rw [h1]; simp))
      rw [h2] at this
      exact this
    refine h.quiet (by rw [h1]; simp) (fun _ => Or.inl hh) (by simp) ?_ (by simp) (by simp)
    intro d e
    cases e
    have hp := h.reading i acc h1
    rw [← hb] at hp ⊢
    exact hp.eq_of_length (Nat.le_antisymm hp.length_le h3)
  | @truncate i u data new h1 h2 h3 h4 =>
    simp only [finished, List.filterMap_cons, List.filterMap_nil, List.append_nil]
    have hh : (s.phase i).holds = true := by rw [h1]; rfl
    have hd := h.holding i data h1
    have hnw := h.noneWriting hh (by rw [h1]; simp)
    refine ⟨?_, ?_, ?_, ?_, ?_, ?_⟩
    · intro a b hab hha hhb
      refine h.alone a b hab ?_ ?_
      · by_cases ea : a = i
        · subst ea; exact hh
        · rwa [← setPhase_ne s (.writing new 0) ea]
      · by_cases eb : b = i
        · subst eb; exact hh
        · rwa [← setPhase_ne s (.writing new 0) eb]
    · intro hn
      exact absurd (setPhase_self s i (.writing new 0)) (hn i new 0)
    · intro j acc hj
      by_cases e : j = i
      · subst e; rw [setPhase_self] at hj; cases hj
      · rw [setPhase_ne _ _ e] at hj; exact h.reading j acc hj
    · intro j d hj
      by_cases e : j = i
      · subst e; rw [setPhase_self] at hj; cases hj
      · rw [setPhase_ne _ _ e] at hj; exact h.holding j d hj
    · intro j new' pos hj
      by_cases e : j = i
      · subst e
        rw [setPhase_self] at hj
        cases hj
        exact ⟨u, h2, by rw [hd] at h3; exact h3, rfl, Nat.zero_le _⟩
      · rw [setPhase_ne _ _ e] at hj; exact absurd hj (hnw j new' pos)
    · intro j d hj hk
      by_cases e : j = i
      · subst e; rw [setPhase_self] at hj; cases hj
      · rw [setPhase_ne _ _ e] at hj; exact h.over j d hj hk
  | @write i n b new pos h1 h2 h3 h4 =>
    simp only [finished, List.filterMap_cons, List.filterMap_nil, List.append_nil]
    have hh : (s.phase i).holds = true := by rw [h1]; rfl
    obtain ⟨u, hk, hu, hf, hpos⟩ := h.writing i new pos h1
    have hothers : ∀ j, j ≠ i → (s.phase j).holds = false := by
      intro j hj
      cases hb : (s.phase j).holds with
      | false => rfl
      | true =>
        have := (h.alone j i hj hb hh).2
        rw [hk] at this
        exact this.elim
    refine ⟨?_, ?_, ?_, ?_, ?_, ?_⟩
    · intro a c hac hha hhc
      refine h.alone a c hac ?_ ?_
      · by_cases ea : a = i
        · subst ea; exact hh
        · rwa [← setPhase_ne s (.writing new (pos + n)) ea]
      · by_cases eb : c = i
        · subst eb; exact hh
        · rwa [← setPhase_ne s (.writing new (pos + n)) eb]
    · intro hn
      exact absurd (setPhase_self s i (.writing new (pos + n))) (hn i new (pos + n))
    · intro j acc hj
      by_cases e : j = i
      · subst e; rw [setPhase_self] at hj; cases hj
      · rw [setPhase_ne _ _ e] at hj; exact h.reading j acc hj
    · intro j d hj
      by_cases e : j = i
      · subst e; rw [setPhase_self] at hj; cases hj
      · rw [setPhase_ne _ _ e] at hj; exact h.holding j d hj
    · intro j new' pos' hj
      by_cases e : j = i
      · subst e
        rw [setPhase_self] at hj
        cases hj
        rw [h2] at hf
        cases hf
        exact ⟨u, hk, hu, by rw [writeAt_end h4], h4⟩
      · rw [setPhase_ne _ _ e] at hj
        have := hothers j e
        rw [hj] at this
        cases this
    · intro j d hj hk
      by_cases e : j = i
      · subst e; rw [setPhase_self] at hj; cases hj
      · rw [setPhase_ne _ _ e] at hj; exact h.over j d hj hk
  | @unlockReader i data h1 h2 =>
    simp only [finished, List.filterMap_cons, List.filterMap_nil, List.append_nil, h2]
    refine h.quiet (by rw [h1]; simp) (by simp [Phase.holds]) (by simp) (by simp) (by simp) ?_
    intro d e _
    cases e
    exact ⟨_, List.prefix_refl _, h.holding i data h1⟩
  | @unlockSame i u data h1 h2 h3 =>
    have e : finished kind [Event.unlock i] = [i] := by simp [finished, h2]
    rw [e]
    have hh : (s.phase i).holds = true := by rw [h1]; rfl
    refine h.finish h2 hh ?_
    rw [h.settled (h.noneWriting hh (by rw [h1]; simp)), applied, ← h.holding i data h1]
    rcases h3 with h3 | h3 <;> rw [h3] <;> rfl
  | @unlockWritten i new h1 =>
    obtain ⟨u, hk, hu, hf, hpos⟩ := h.writing i new _ h1
    have e : finished kind [Event.unlock i] = [i] := by simp [finished, hk]
    rw [e]
    refine h.finish hk (by rw [h1]; rfl) ?_
    rw [hf, applied, hu, List.take_length]
    rfl
  | @killEarly i h1 =>
    simp only [finished, List.filterMap_cons, List.filterMap_nil, List.append_nil]
    refine h.quiet ?_ (by simp [Phase.holds]) (by simp) (by simp) (by simp) (by simp)
    intro new pos hw
    rcases h1 with h1 | ⟨_, h1⟩ | ⟨_, h1⟩ <;> rw [hw] at h1 <;> cases h1
  | @killLate i new pos h1 => exact absurd (setPhase_self s i .torn) (ht i)

theorem step_torn {s t : State} {e : Event} (hs : Step kind works s e t) (ht : NoneTorn t) : NoneTorn s := by
  intro j hj
  have other : ∀ (i : Nat) (p : Phase), s.phase i ≠ .torn → (setPhase s i p).phase j ≠ .torn → False := by
    intro i p hi hn
    by_cases e : j = i
    · subst e; exact hi hj
    · rw [setPhase_ne _ _ e] at hn; exact hn hj
  have htj := ht j
  cases hs with
  | @openWriter i u h1 h2 => exact other i _ (by rw [h1]; simp) htj
  | @openReader i b h1 h2 h3 => exact other i _ (by rw [h1]; simp) htj
  | @openFails i h1 h2 h3 => exact other i _ (by rw [h1]; simp) htj
  | @lock i h1 h2 => exact other i _ (by rw [h1]; simp) htj
  | @readMore i n acc b h1 h2 h3 h4 => exact other i _ (by rw [h1]; simp) htj
  | @readEnd i acc b h1 h2 h3 => exact other i _ (by rw [h1]; simp) htj
  | @truncate i u data new h1 h2 h3 h4 => exact other i _ (by rw [h1]; simp) htj
  | @write i n b new pos h1 h2 h3 h4 => exact other i _ (by rw [h1]; simp) htj
  | @unlockReader i data h1 h2 => exact other i _ (by rw [h1]; simp) htj
  | @unlockSame i u data h1 h2 h3 => exact other i _ (by rw [h1]; simp) htj
  | @unlockWritten i new h1 => exact other i _ (by rw [h1]; simp) htj
  | @killEarly i h1 =>
    refine other i _ ?_ htj
    intro hw
    rcases h1 with h1 | ⟨_, h1⟩ | ⟨_, h1⟩ <;> rw [hw] at h1 <;> cases h1
  | @killLate i new pos h1 => exact other i _ (by rw [h1]; simp) htj

theorem Run.inv {es : List Event} {s : State} (h : Run kind true f0 es s) (ht : NoneTorn s) :
    Inv kind f0 (finished kind es) s := by
  induction h with
  | start =>
    refine ⟨?_, fun _ => rfl, ?_, ?_, ?_, ?_⟩
    · intro i j _ h; cases h
    · intro i acc h; cases h
    · intro i d h; cases h
    · intro i new pos h; cases h
    · intro i d h; cases h
  | step _ hs ih => exact (ih (step_torn hs ht)).step hs ht

/-! ## The theorems -/

/-- Where locks work, and unless a process was killed while it wrote, the file has the contents that the finished updates
make one after the other, in the order in which they released their locks: none is lost. -/
theorem updates_serialise_partial {es : List Event} {s : State} (h : Run kind true f0 es s) (ht : NoneTorn s)
    (hw : NoneWriting s) : s.file.getD [] = after kind f0 (finished kind es) := (h.inv ht).settled hw

/-- A reader gets the contents between two updates, never a file that is being written. -/
theorem readers_see_whole_partial {es : List Event} {s : State} (h : Run kind true f0 es s) (ht : NoneTorn s) {i : Nat}
    {d : Bytes} (hk : kind i = .reader) (hd : s.phase i = .over d) :
    ∃ p, p <+: finished kind es ∧ d = after kind f0 p := (h.inv ht).over i d hd hk

/-- An update works on the contents that all updates before it made. -/
theorem update_works_on_last_partial {es : List Event} {s : State} (h : Run kind true f0 es s) (ht : NoneTorn s) {i : Nat}
    {d : Bytes} (hd : s.phase i = .holding d) : d = after kind f0 (finished kind es) := (h.inv ht).holding i d hd

/-- While an update is under way nobody else reads or writes. -/
theorem update_alone_partial {es : List Event} {s : State} (h : Run kind true f0 es s) (ht : NoneTorn s) {i j : Nat}
    {u : Bytes → Option Bytes} (hk : kind i = .writer u) (hi : (s.phase i).holds = true) (hj : j ≠ i) :
    (s.phase j).holds = false := by
  cases hb : (s.phase j).holds with
  | false => rfl
  | true =>
    have := ((h.inv ht).alone j i hj hb hi).2
    rw [hk] at this
    exact this.elim

/-- A file that was once there, and processes that hold it, are there. -/
theorem busy_file {es : List Event} {s : State} (h : Run kind works f0 es s) {i : Nat} (hb : Busy s i) :
    ∃ b, s.file = some b := by
  have key : s.file = none → ∀ j, ¬ Busy s j := by
    clear hb
    induction h with
    | start => intro _ j hj; rcases hj with hj | hj <;> cases hj
    | @step es s t e _ hs ih =>
      intro hf j hj
      have keep : ∀ (i : Nat) (p : Phase), t = setPhase s i p → Busy s i ∨ (p ≠ .opened ∧ p.holds = false) → False := by
        intro i p ht hor
        subst ht
        have hs0 : s.file = none := hf
        by_cases e : j = i
        · subst e
          rcases hor with hor | ⟨h1, h2⟩
          · exact ih hs0 j hor
          · unfold Busy at hj
            rw [setPhase_self] at hj
            rcases hj with hj | hj
            · exact h1 hj
            · rw [h2] at hj; cases hj
        · unfold Busy at hj
          rw [setPhase_ne _ _ e] at hj
          exact ih hs0 j hj
      cases hs with
      | openWriter h1 h2 => cases hf
      | @openReader i b h1 h2 h3 =>
        have hs0 : s.file = none := hf
        rw [h3] at hs0; cases hs0
      | @openFails i h1 h2 h3 => exact keep i _ rfl (Or.inr ⟨by simp, rfl⟩)
      | @lock i h1 h2 => exact keep i _ rfl (Or.inl (Or.inl h1))
      | @readMore i n acc b h1 h2 h3 h4 => exact keep i _ rfl (Or.inl (Or.inr (by rw [h1]; rfl)))
      | @readEnd i acc b h1 h2 h3 => exact keep i _ rfl (Or.inl (Or.inr (by rw [h1]; rfl)))
      | truncate h1 h2 h3 h4 => cases hf
      | write h1 h2 h3 h4 => cases hf
      | @unlockReader i data h1 h2 => exact keep i _ rfl (Or.inr ⟨by simp, rfl⟩)
      | @unlockSame i u data h1 h2 h3 => exact keep i _ rfl (Or.inr ⟨by simp, rfl⟩)
      | @unlockWritten i new h1 => exact keep i _ rfl (Or.inr ⟨by simp, rfl⟩)
      | @killEarly i h1 => exact keep i _ rfl (Or.inr ⟨by simp, rfl⟩)
      | @killLate i new pos h1 => exact keep i _ rfl (Or.inr ⟨by simp, rfl⟩)
  cases hf : s.file with
  | none => exact absurd hb (key hf i)
  | some b => exact ⟨b, rfl⟩

/-- What is left to write never runs over. -/
theorem writing_bound {es : List Event} {s : State} (h : Run kind works f0 es s) {i : Nat} {new : Bytes} {pos : Nat}
    (hw : s.phase i = .writing new pos) : pos ≤ new.length := by
  induction h with
  | start => cases hw
  | @step es s t e _ hs ih =>
    have keep : ∀ (j : Nat) (p : Phase), (setPhase s j p).phase i = .writing new pos →
        (∀ new pos, p = .writing new pos → pos ≤ new.length) → pos ≤ new.length := by
      intro j p ht hp
      by_cases e : i = j
      · subst e; rw [setPhase_self] at ht; exact hp _ _ ht
      · rw [setPhase_ne _ _ e] at ht; exact ih ht
    cases hs with
    | openWriter h1 h2 => exact keep _ _ hw (by simp)
    | truncate h1 h2 h3 h4 => exact keep _ _ hw (by rintro _ _ e; cases e; exact Nat.zero_le _)
    | write h1 h2 h3 h4 => exact keep _ _ hw (by rintro _ _ e; cases e; exact h4)
    | openReader | openFails | lock | readMore | readEnd | unlockReader | unlockSame | unlockWritten | killEarly | killLate =>
      exact keep _ _ hw (by simp)

/-- The processes never wait for each other in a circle: if one has begun and not ended, one that has begun can go on
without any being killed. -/
theorem never_stuck {es : List Event} {s : State} (h : Run kind works f0 es s) {i : Nat} (hb : Busy s i) :
    ∃ j e t, Busy s j ∧ Step kind works s e t ∧ (e = .lock j ∨ (∃ n, e = .read j n) ∨ e = .truncate j ∨
      (∃ n, e = .write j n) ∨ e = .unlock j) := by
  by_cases hh : ∃ j, (s.phase j).holds = true
  · obtain ⟨j, hj⟩ := hh
    obtain ⟨b, hf⟩ := busy_file h (i := j) (Or.inr hj)
    cases hp : s.phase j with
    | reading acc =>
      rcases Nat.lt_or_ge acc.length b.length with hl | hl
      · exact ⟨j, _, _, Or.inr hj, .readMore hp hf (n := 1) (by decide) hl, Or.inr (Or.inl ⟨1, rfl⟩)⟩
      · exact ⟨j, _, _, Or.inr hj, .readEnd hp hf hl, Or.inr (Or.inl ⟨0, rfl⟩)⟩
    | holding d =>
      cases hk : kind j with
      | reader => exact ⟨j, _, _, Or.inr hj, .unlockReader hp hk, Or.inr (Or.inr (Or.inr (Or.inr rfl)))⟩
      | writer u =>
        cases hu : u d with
        | none => exact ⟨j, _, _, Or.inr hj, .unlockSame hp hk (Or.inl hu), Or.inr (Or.inr (Or.inr (Or.inr rfl)))⟩
        | some new =>
          by_cases e : new = d
          · subst e
            exact ⟨j, _, _, Or.inr hj, .unlockSame hp hk (Or.inr hu), Or.inr (Or.inr (Or.inr (Or.inr rfl)))⟩
          · exact ⟨j, _, _, Or.inr hj, .truncate hp hk hu e, Or.inr (Or.inr (Or.inl rfl))⟩
    | writing new pos =>
      rcases Nat.lt_or_ge pos new.length with hl | hl
      · exact ⟨j, _, _, Or.inr hj, .write hp hf (n := 1) (by decide) hl, Or.inr (Or.inr (Or.inr (Or.inl ⟨1, rfl⟩)))⟩
      · have : pos = new.length := Nat.le_antisymm (writing_bound h hp) hl
        subst this
        exact ⟨j, _, _, Or.inr hj, .unlockWritten hp, Or.inr (Or.inr (Or.inr (Or.inr rfl)))⟩
    | fresh => rw [hp] at hj; cases hj
    | opened => rw [hp] at hj; cases hj
    | over _ => rw [hp] at hj; cases hj
    | failed => rw [hp] at hj; cases hj
    | killed => rw [hp] at hj; cases hj
    | torn => rw [hp] at hj; cases hj
  · rcases hb with hb | hb
    · exact ⟨i, _, _, Or.inl hb, .lock hb (fun _ j hj => absurd ⟨j, hj⟩ hh), Or.inl rfl⟩
    · exact absurd ⟨i, hb⟩ hh

/-! ## Where it fails -/

/-- Two updates that each add a line. -/
def two : Nat → Kind := fun i => if i = 2 then .reader else .writer fun b => some (b ++ [i + 1])

/-- The steps of an update of a file of `k` bytes by one byte. -/
theorem lost_run : ∃ es s, Run two false (some []) es s ∧ NoneTorn s ∧ NoneWriting s ∧ finished two es = [0, 1] ∧
    s.file = some [2] := by
  have h0 : two 0 = .writer fun b => some (b ++ [1]) := rfl
  have h1 : two 1 = .writer fun b => some (b ++ [2]) := rfl
  have r := Run.start (kind := two) (works := false) (file := some [])
  have r := r.step (.openWriter (i := 0) rfl h0)
  have r := r.step (.openWriter (i := 1) rfl h1)
  have r := r.step (.lock (i := 0) rfl (fun h => by cases h))
  have r := r.step (.lock (i := 1) rfl (fun h => by cases h))
  have r := r.step (.readEnd (i := 0) (b := []) rfl rfl (Nat.le_refl _))
  have r := r.step (.readEnd (i := 1) (b := []) rfl rfl (Nat.le_refl _))
  have r := r.step (.truncate (i := 0) (data := []) (new := [1]) rfl h0 rfl (by decide))
  have r := r.step (.write (i := 0) (n := 1) (b := []) (new := [1]) (pos := 0) rfl rfl (by decide) (by decide))
  have r := r.step (.unlockWritten (i := 0) (new := [1]) rfl)
  have r := r.step (.truncate (i := 1) (data := []) (new := [2]) rfl h1 rfl (by decide))
  have r := r.step (.write (i := 1) (n := 1) (b := []) (new := [2]) (pos := 0) rfl rfl (by decide) (by decide))
  have r := r.step (.unlockWritten (i := 1) (new := [2]) rfl)
  refine ⟨_, _, r, ?_, ?_, rfl, rfl⟩
  · intro i
    by_cases e1 : i = 1
    · subst e1; simp [setPhase]
    · by_cases e0 : i = 0
      · subst e0; simp [setPhase]
      · simp [setPhase, e0, e1]
  · intro i new pos
    by_cases e1 : i = 1
    · subst e1; simp [setPhase]
    · by_cases e0 : i = 0
      · subst e0; simp [setPhase]
      · simp [setPhase, e0, e1]

/-- Where locks do not work, as on network file systems, a finished update can be lost: the contents are those of no
order of the two. -/
theorem lost_without_locks : ∃ es s, Run two false (some []) es s ∧ NoneTorn s ∧ NoneWriting s ∧
    finished two es = [0, 1] ∧ s.file.getD [] ≠ after two (some []) [0, 1] ∧
    s.file.getD [] ≠ after two (some []) [1, 0] := by
  obtain ⟨es, s, h1, h2, h3, h4, h5⟩ := lost_run
  exact ⟨es, s, h1, h2, h3, h4, by rw [h5]; decide, by rw [h5]; decide⟩

/-- Two updates: the first one writes two bytes, the second one writes one. -/
def twoBytes : Nat → Kind
  | 0 => .writer fun _ => some [5, 6]
  | 1 => .writer fun _ => some [9]
  | _ => .reader

/-- Where locks do not work, the contents may have bytes that no update wrote: zeros, where one update emptied the file while the other
one was in the middle of it. -/
theorem zeros_without_locks : ∃ es s, Run twoBytes false (some [7]) es s ∧ s.file = some [0, 6] := by
  have h0 : twoBytes 0 = .writer fun _ => some [5, 6] := rfl
  have h1 : twoBytes 1 = .writer fun _ => some [9] := rfl
  have r := Run.start (kind := twoBytes) (works := false) (file := some [7])
  have r := r.step (.openWriter (i := 0) rfl h0)
  have r := r.step (.openWriter (i := 1) rfl h1)
  have r := r.step (.lock (i := 0) rfl nofun)
  have r := r.step (.lock (i := 1) rfl nofun)
  have r := r.step (.readMore (i := 0) (n := 1) (acc := []) (b := [7]) rfl rfl (by decide) (by decide))
  have r := r.step (.readEnd (i := 0) (acc := [7]) (b := [7]) rfl rfl (Nat.le_refl _))
  have r := r.step (.readMore (i := 1) (n := 1) (acc := []) (b := [7]) rfl rfl (by decide) (by decide))
  have r := r.step (.readEnd (i := 1) (acc := [7]) (b := [7]) rfl rfl (Nat.le_refl _))
  have r := r.step (.truncate (i := 0) (data := [7]) (new := [5, 6]) rfl h0 rfl (by decide))
  have r := r.step (.write (i := 0) (n := 1) (b := []) (new := [5, 6]) (pos := 0) rfl rfl (by decide) (by decide))
  have r := r.step (.truncate (i := 1) (data := [7]) (new := [9]) rfl h1 rfl (by decide))
  have r := r.step (.write (i := 0) (n := 1) (b := []) (new := [5, 6]) (pos := 1) rfl rfl (by decide) (by decide))
  exact ⟨_, _, r, rfl⟩

/-- A reader can find a file that is there but empty although no update was made to it: a first update makes the file
before it locks it. -/
theorem reader_finds_empty : ∃ es s, Run two true none es s ∧ NoneTorn s ∧ finished two es = [] ∧
    s.phase 2 = .over [] ∧ s.phase 0 = .opened := by
  have h0 : two 0 = .writer fun b => some (b ++ [1]) := rfl
  have h2 : two 2 = .reader := rfl
  have r := Run.start (kind := two) (works := true) (file := none)
  have r := r.step (.openWriter (i := 0) rfl h0)
  have r := r.step (.openReader (i := 2) (b := []) rfl h2 rfl)
  have r := r.step (.lock (i := 2) rfl (by
    intro _ j hj
    exfalso
    by_cases e2 : j = 2
    · subst e2; simp [setPhase, Phase.holds] at hj
    · by_cases e0 : j = 0
      · subst e0; simp [setPhase, Phase.holds] at hj
      · simp [setPhase, e0, e2, Phase.holds] at hj))
  have r := r.step (.readEnd (i := 2) (b := []) rfl rfl (Nat.le_refl _))
  have r := r.step (.unlockReader (i := 2) (data := []) rfl h2)
  refine ⟨_, _, r, ?_, rfl, rfl, rfl⟩
  intro i
  by_cases e2 : i = 2
  · subst e2; simp [setPhase]
  · by_cases e0 : i = 0
    · subst e0; simp [setPhase]
    · simp [setPhase, e0, e2]

/-- A process that is killed while it writes leaves a file that no update made. -/
theorem killed_tears : ∃ es s, Run two true (some [7]) es s ∧ NoneWriting s ∧ finished two es = [] ∧ s.file = some [] := by
  have h0 : two 0 = .writer fun b => some (b ++ [1]) := rfl
  have r := Run.start (kind := two) (works := true) (file := some [7])
  have r := r.step (.openWriter (i := 0) rfl h0)
  have r := r.step (.lock (i := 0) rfl (by
    intro _ j hj
    exfalso
    by_cases e0 : j = 0
    · subst e0; simp [setPhase, Phase.holds] at hj
    · simp [setPhase, e0, Phase.holds] at hj))
  have r := r.step (.readMore (i := 0) (n := 1) (acc := []) (b := [7]) rfl rfl (by decide) (by decide))
  have r := r.step (.readEnd (i := 0) (acc := [7]) (b := [7]) rfl rfl (Nat.le_refl _))
  have r := r.step (.truncate (i := 0) (data := [7]) (new := [7, 1]) rfl h0 rfl (by decide))
  have r := r.step (.killLate (i := 0) (new := [7, 1]) (pos := 0) rfl)
  refine ⟨_, _, r, ?_, rfl, rfl⟩
  intro i new pos
  by_cases e0 : i = 0
  · subst e0; simp [setPhase]
  · simp [setPhase, e0]

end Tinymist.LockFlow
