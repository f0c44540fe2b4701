import Verif.Spec.OutlineMany

/-!
# The outline in the editor is that of the latest document, with several pages (C189)
-/

namespace Tinymist.OutlineMany

variable {D : Type}

theorem stored_append (a b : List (Act D)) : stored (a ++ b) = stored a ++ stored b := by
  induction a with
  | nil => rfl
  | cons o a ih => cases o <;> simp [stored, ih]

theorem exists_set {α : Type} {P : α → Prop} {ls : List α} {i : Nat} {l l' : α} (hl : ls[i]? = some l) (h : ∃ x ∈ ls, P x) (hp : P l → P l') :
    ∃ x ∈ ls.set i l', P x := by
  obtain ⟨x, hx, h1⟩ := h
  obtain ⟨j, hj⟩ := List.mem_iff_getElem?.1 hx
  by_cases e : i = j
  · subst e
    rw [hl] at hj
    cases hj
    obtain ⟨hlt, -⟩ := List.getElem?_eq_some_iff.1 hl
    exact ⟨l', List.mem_set hlt l', hp h1⟩
  · refine ⟨x, List.mem_iff_getElem?.2 ⟨j, ?_⟩, h1⟩
    rw [List.getElem?_set_ne e]
    exact hj

theorem set_self {α : Type} {P : α → Prop} {ls : List α} {i : Nat} {l l' : α} (hl : ls[i]? = some l) (h : P l') : ∃ x ∈ ls.set i l', P x := by
  obtain ⟨hlt, -⟩ := List.getElem?_eq_some_iff.1 hl
  exact ⟨l', List.mem_set hlt l', h⟩

theorem forall_set {α : Type} {P : α → Prop} {ls : List α} {i : Nat} {l' : α} (h : ∀ x ∈ ls, P x) (hp : P l') : ∀ x ∈ ls.set i l', P x := by
  intro x hx
  rcases List.mem_or_eq_of_mem_set hx with hx | rfl
  · exact h x hx
  · exact hp

/-- A loop has something to do before it waits. -/
def Busy (l : Loop D) : Prop := 0 < l.queue ∨ l.lagged = true ∨ l.phase ≠ .idle

/-- A loop will look for the document, or has it and has not made the outline. -/
def Pending (l : Loop D) : Prop := 0 < l.queue ∨ l.lagged = true ∨ l.phase = .drain ∨ l.phase = .ready ∨ ∃ d, l.phase = .found d

/-- What a loop has in hand. -/
def Holds (l : Loop D) (d : D) : Prop := l.phase = .found d ∨ l.phase = .built d

/-- What holds of every loop. -/
def Good (view : Option D) (posting : Nat) (docs : List D) (l : Loop D) : Prop :=
  ∀ d, Holds l d → d ∈ docs ∧ (posting = 0 → l.queue = 0 → l.lagged = false → view = some d)

/-- What holds throughout. -/
structure Inv (s : State D) (docs : List D) (asked : Prop) : Prop where
  view : s.view = docs.getLast?
  some : s.loops ≠ []
  sent : ∀ d ∈ s.sent, d ∈ docs
  interned : ∀ d, s.interned = .some d → d ∈ docs
  good : ∀ l ∈ s.loops, Good s.view s.posting docs l
  fresh : asked → 0 < s.posting ∨ (∃ l ∈ s.loops, Busy l) ∨ shown s = s.view
  kept : asked → 0 < s.posting ∨ (∃ l ∈ s.loops, Pending l) ∨ s.interned = s.view

theorem post_full (cap : Nat) (l : Loop D) : 0 < (l.post cap).queue ∨ (l.post cap).lagged = true := by
  unfold Loop.post
  split
  · exact .inl (Nat.succ_pos _)
  · exact .inr rfl

theorem post_phase (cap : Nat) (l : Loop D) : (l.post cap).phase = l.phase := by
  unfold Loop.post
  split <;> rfl

theorem post_inv {cap : Nat} {s : State D} {docs : List D} {asked asked' : Prop} (hi : Inv s docs asked) (n : Nat) :
    Inv { s with posting := n, loops := s.loops.map (Loop.post cap) } docs asked' := by
  obtain ⟨h1, h2, h3, h4, h5, -, -⟩ := hi
  obtain ⟨l, ls, hl⟩ := List.exists_cons_of_ne_nil h2
  have hm : l.post cap ∈ s.loops.map (Loop.post cap) := by rw [hl]; exact List.mem_cons_self
  refine ⟨h1, by simpa using h2, h3, h4, ?_, fun _ => .inr (.inl ⟨_, hm, ?_⟩), fun _ => .inr (.inl ⟨_, hm, ?_⟩)⟩
  · intro x hx d hd
    obtain ⟨y, hy, rfl⟩ := List.mem_map.1 hx
    unfold Holds at hd
    rw [post_phase] at hd
    refine ⟨(h5 y hy d hd).1, fun _ a b => ?_⟩
    rcases post_full cap y with h | h
    · omega
    · rw [b] at h; cases h
  · rcases post_full cap l with h | h
    · exact .inl h
    · exact .inr (.inl h)
  · rcases post_full cap l with h | h
    · exact .inl h
    · exact .inr (.inl h)

/-- A loop goes on in itself. -/
theorem on_inv {s : State D} {docs : List D} {asked : Prop} (hi : Inv s docs asked) (i : Nat) (f : Loop D → Loop D)
    (hg : ∀ l, Good s.view s.posting docs l → Good s.view s.posting docs (f l))
    (hb : ∀ l, Busy l → Busy (f l) ∨ s.view = none) (hp : ∀ l, Pending l → Pending (f l) ∨ s.view = none) : Inv (s.on i f) docs asked := by
  have hi' := hi
  obtain ⟨h1, h2, h3, h4, h5, h6, h7⟩ := hi
  unfold State.on
  split
  · rename_i l hl
    have hmem : l ∈ s.loops := List.mem_iff_getElem?.2 ⟨i, hl⟩
    have hnone : s.view = none → s.sent = [] ∧ s.interned = none := by
      intro hv
      rw [hv] at h1
      have hd := List.getLast?_eq_none_iff.1 h1.symm
      subst hd
      constructor
      · cases hs : s.sent with
        | nil => rfl
        | cons x xs => exact (nomatch h3 x (by rw [hs]; exact List.mem_cons_self))
      · cases hs : s.interned with
        | none => rfl
        | some x => exact (nomatch h4 x hs)
    refine ⟨h1, by simpa using h2, h3, h4, forall_set h5 (hg l (h5 l hmem)), fun a => ?_, fun a => ?_⟩
    · rcases h6 a with h | h | h
      · exact .inl h
      · by_cases hv : s.view = none
        · exact .inr (.inr (by unfold shown; rw [(hnone hv).1, hv]; rfl))
        · exact .inr (.inl (exists_set hl h fun hx => (hb l hx).resolve_right hv))
      · exact .inr (.inr h)
    · rcases h7 a with h | h | h
      · exact .inl h
      · by_cases hv : s.view = none
        · exact .inr (.inr ((hnone hv).2.trans hv.symm))
        · exact .inr (.inl (exists_set hl h fun hx => (hp l hx).resolve_right hv))
      · exact .inr (.inr h)
  · exact hi'

theorem step_inv (cap : Nat) (s : State D) (docs : List D) (asked : Prop) (op : Act D) (hi : Inv s docs asked) :
    Inv (step cap s op) (docs ++ stored [op]) (asked ∨ Asked [op]) := by
  have hi' := hi
  have hn : ∀ {s' : State D} {docs' : List D}, Inv s' docs' asked → ¬ Asked [op] → Inv s' docs' (asked ∨ Asked [op]) := fun h hna =>
    ⟨h.view, h.some, h.sent, h.interned, h.good, fun ha => h.fresh (ha.elim id fun h => absurd h hna),
      fun ha => h.kept (ha.elim id fun h => absurd h hna)⟩
  obtain ⟨h1, h2, h3, h4, h5, h6, h7⟩ := hi
  cases op with
  | store d =>
    exact ⟨by simp [step, stored], h2, fun x hx => List.mem_append_left _ (h3 x hx), fun x hx => List.mem_append_left _ (h4 x hx),
      fun l hl x hx => ⟨List.mem_append_left _ (h5 l hl x hx).1, fun h => absurd h (by simp [step])⟩,
      fun _ => .inl (Nat.succ_pos _), fun _ => .inl (Nat.succ_pos _)⟩
  | announce =>
    simp only [stored, List.append_nil, step]
    split
    · exact hn hi' (by simp [Asked])
    · exact post_inv hi' _
  | request =>
    simp only [stored, List.append_nil, step]
    exact post_inv hi' s.posting
  | connect =>
    refine hn ?_ (by simp [Asked])
    simp only [stored, List.append_nil, step]
    refine ⟨h1, by simp, h3, h4, ?_, fun a => ?_, fun a => ?_⟩
    · intro l hl
      rcases List.mem_append.1 hl with hl | hl
      · exact h5 l hl
      · cases List.mem_singleton.1 hl
        rintro d (h | h) <;> cases h
    · rcases h6 a with h | ⟨l, hl, h⟩ | h
      · exact .inl h
      · exact .inr (.inl ⟨l, List.mem_append_left _ hl, h⟩)
      · exact .inr (.inr h)
    · rcases h7 a with h | ⟨l, hl, h⟩ | h
      · exact .inl h
      · exact .inr (.inl ⟨l, List.mem_append_left _ hl, h⟩)
      · exact .inr (.inr h)
  | recv i =>
    refine hn ?_ (by simp [Asked])
    simp only [stored, List.append_nil, step]
    refine on_inv hi' i _ (fun l hl => ?_) (fun l hl => .inl ?_) (fun l hl => .inl ?_)
    · unfold Loop.recv
      split
      · split
        · rintro d (h | h) <;> cases h
        · split
          · exact hl
          · rintro d (h | h) <;> cases h
      · exact hl
    · unfold Loop.recv
      split
      · split
        · exact .inr (.inr (by simp))
        · split
          · exact hl
          · exact .inr (.inr (by simp))
      · exact hl
    · unfold Loop.recv
      split
      · split
        · exact .inr (.inr (.inl rfl))
        · split
          · exact hl
          · exact .inr (.inr (.inl rfl))
      · exact hl
  | tryRecv i =>
    refine hn ?_ (by simp [Asked])
    simp only [stored, List.append_nil, step]
    refine on_inv hi' i _ (fun l hl => ?_) (fun l hl => .inl ?_) (fun l hl => .inl ?_)
    · unfold Loop.tryRecv
      split
      · rename_i hp
        split
        · rintro d (h | h) <;> cases h
        · split
          · rintro d (h | h) <;> cases h
          · rintro d (h | h) <;> (simp only [hp] at h; cases h)
      · exact hl
    · unfold Loop.tryRecv
      split
      · rename_i hp
        split
        · exact .inr (.inr (by simp))
        · split
          · exact .inr (.inr (by simp))
          · exact .inr (.inr (by simp [hp]))
      · exact hl
    · unfold Loop.tryRecv
      split
      · rename_i hp
        split
        · exact .inr (.inr (.inr (.inl rfl)))
        · split
          · exact .inr (.inr (.inr (.inl rfl)))
          · exact .inr (.inr (.inl hp))
      · exact hl
  | look i =>
    refine hn ?_ (by simp [Asked])
    simp only [stored, List.append_nil, step]
    refine on_inv hi' i _ (fun l hl => ?_) (fun l hl => ?_) (fun l hl => ?_)
    · unfold Loop.look
      split
      · split
        · rintro d (h | h) <;> cases h
        · rename_i d hv
          rintro e (h | h)
          · cases h
            exact ⟨List.mem_of_getLast? (h1.symm.trans hv), fun _ _ _ => hv⟩
          · cases h
      · exact hl
    · unfold Loop.look
      split
      · split
        · rename_i hv; exact .inr hv
        · exact .inl (.inr (.inr (by simp)))
      · exact .inl hl
    · unfold Loop.look
      split
      · split
        · rename_i hv; exact .inr hv
        · exact .inl (.inr (.inr (.inr (.inr ⟨_, rfl⟩))))
      · exact .inl hl
  | intern i =>
    refine hn ?_ (by simp [Asked])
    simp only [stored, List.append_nil, step, State.intern]
    split
    · exact hi'
    · rename_i l hl
      have hmem : l ∈ s.loops := List.mem_iff_getElem?.2 ⟨i, hl⟩
      split
      · rename_i d hp
        obtain ⟨h8, h9⟩ := h5 l hmem d (.inl hp)
        refine ⟨h1, by simpa using h2, h3, ?_, forall_set h5 ?_, fun a => ?_, fun _ => ?_⟩
        · intro x hx
          cases hx
          exact h8
        · rintro x (h | h)
          · cases h
          · cases h
            exact ⟨h8, h9⟩
        · exact .inr (.inl (set_self hl (.inr (.inr (by simp)))))
        · by_cases a : s.posting = 0
          · by_cases b : l.queue = 0
            · cases c : l.lagged with
              | false => exact .inr (.inr (h9 a b c).symm)
              | true => exact .inr (.inl (set_self hl (.inr (.inl rfl))))
            · exact .inr (.inl (set_self hl (.inl (Nat.pos_of_ne_zero b))))
          · exact .inl (Nat.pos_of_ne_zero a)
      · exact hi'
  | send i =>
    refine hn ?_ (by simp [Asked])
    simp only [stored, List.append_nil, step, State.send]
    split
    · exact hi'
    · rename_i l hl
      have hmem : l ∈ s.loops := List.mem_iff_getElem?.2 ⟨i, hl⟩
      split
      · rename_i d hp
        obtain ⟨h8, h9⟩ := h5 l hmem d (.inr hp)
        refine ⟨h1, by simpa using h2, ?_, h4, forall_set h5 ?_, fun _ => ?_, fun a => ?_⟩
        · intro x hx
          rcases List.mem_append.1 hx with hx | hx
          · exact h3 x hx
          · cases List.mem_singleton.1 hx
            exact h8
        · rintro x (h | h) <;> cases h
        · by_cases a : s.posting = 0
          · by_cases b : l.queue = 0
            · cases c : l.lagged with
              | false =>
                refine .inr (.inr ?_)
                show (s.sent ++ [d]).getLast? = s.view
                rw [h9 a b c]
                simp
              | true => exact .inr (.inl (set_self hl (.inr (.inl rfl))))
            · exact .inr (.inl (set_self hl (.inl (Nat.pos_of_ne_zero b))))
          · exact .inl (Nat.pos_of_ne_zero a)
        · rcases h7 a with h | h | h
          · exact .inl h
          · refine .inr (.inl (exists_set hl h ?_))
            rintro (h | h | h | h | ⟨e, h⟩)
            · exact .inl h
            · exact .inr (.inl h)
            · rw [hp] at h; cases h
            · rw [hp] at h; cases h
            · rw [hp] at h; cases h
          · exact .inr (.inr h)
      · exact hi'

theorem run_inv (cap : Nat) (v : Option D) (acts : List (Act D)) : Inv (run cap v acts) (v.toList ++ stored acts) (Asked acts) := by
  have key : ∀ (more acts : List (Act D)) (s : State D), Inv s (v.toList ++ stored acts) (Asked acts) →
      Inv (more.foldl (step cap) s) (v.toList ++ stored (acts ++ more)) (Asked (acts ++ more)) := by
    intro more
    induction more with
    | nil => intro acts s h; simpa using h
    | cons o more ih =>
      intro acts s h
      have h1 := step_inv cap s _ _ o h
      have ha : Asked (acts ++ [o]) → Asked acts ∨ Asked [o] := by
        rintro (⟨d, hd⟩ | hd)
        · rcases List.mem_append.1 hd with hd | hd
          · exact .inl (.inl ⟨d, hd⟩)
          · exact .inr (.inl ⟨d, hd⟩)
        · rcases List.mem_append.1 hd with hd | hd
          · exact .inl (.inr hd)
          · exact .inr (.inr hd)
      have h2 : Inv (step cap s o) (v.toList ++ stored (acts ++ [o])) (Asked (acts ++ [o])) := by
        rw [stored_append, ← List.append_assoc]
        exact ⟨h1.view, h1.some, h1.sent, h1.interned, h1.good, fun a => h1.fresh (ha a), fun a => h1.kept (ha a)⟩
      have := ih (acts ++ [o]) (step cap s o) h2
      simpa using this
  refine key acts [] (start v) ⟨by cases v <;> rfl, by simp [start], fun _ h => (nomatch h), fun _ h => (nomatch h), ?_, fun h => ?_, fun h => ?_⟩
  · intro l hl
    cases List.mem_singleton.1 hl
    rintro d (h | h) <;> cases h
  · rcases h with ⟨d, h⟩ | h <;> cases h
  · rcases h with ⟨d, h⟩ | h <;> cases h

/-- **C189.** However many pages are connected: whenever a document came or something was asked for, and nothing is left to do, the editor shows
the outline of the latest document, and the places kept are those of this outline. -/
theorem latest_shown_many (cap : Nat) (v : Option D) (acts : List (Act D)) (ha : Asked acts) (h : Quiet (run cap v acts)) :
    shown (run cap v acts) = (v.toList ++ stored acts).getLast? ∧ (run cap v acts).interned = shown (run cap v acts) := by
  obtain ⟨h1, -, -, -, -, h6, h7⟩ := run_inv cap v acts
  have e1 : shown (run cap v acts) = (run cap v acts).view := by
    rcases h6 ha with h8 | ⟨l, hl, h8⟩ | h8
    · have := h.1; omega
    · obtain ⟨a, b, c⟩ := h.2 l hl
      rcases h8 with h8 | h8 | h8
      · omega
      · rw [b] at h8; cases h8
      · exact (h8 c).elim
    · exact h8
  have e2 : (run cap v acts).interned = (run cap v acts).view := by
    rcases h7 ha with h8 | ⟨l, hl, h8⟩ | h8
    · have := h.1; omega
    · obtain ⟨a, b, c⟩ := h.2 l hl
      rcases h8 with h8 | h8 | h8 | h8 | ⟨d, h8⟩
      · omega
      · rw [b] at h8; cases h8
      · rw [c] at h8; cases h8
      · rw [c] at h8; cases h8
      · rw [c] at h8; cases h8
    · exact h8
  exact ⟨e1.trans h1, e2.trans e1.symm⟩

/-- **C189.** Nothing is ever sent but outlines of documents that were stored. -/
theorem sent_stored (cap : Nat) (v : Option D) (acts : List (Act D)) : ∀ d ∈ (run cap v acts).sent, d ∈ v.toList ++ stored acts :=
  (run_inv cap v acts).sent

theorem on_all {P : Loop D → Prop} {s : State D} {f : Loop D → Loop D} (i : Nat) (hf : ∀ l, P l → P (f l)) (h : ∀ l ∈ s.loops, P l) :
    ∀ l ∈ (s.on i f).loops, P l := by
  unfold State.on
  split
  · rename_i l hl
    exact forall_set h (hf l (h l (List.mem_iff_getElem?.2 ⟨i, hl⟩)))
  · exact h

theorem step_bounded (cap : Nat) (s : State D) (op : Act D) (h : ∀ l ∈ s.loops, l.queue ≤ cap) : ∀ l ∈ (step cap s op).loops, l.queue ≤ cap := by
  have hpost : ∀ l ∈ s.loops.map (Loop.post cap), l.queue ≤ cap := by
    intro l hl
    obtain ⟨y, hy, rfl⟩ := List.mem_map.1 hl
    have := h y hy
    unfold Loop.post
    split
    · dsimp only; omega
    · exact this
  cases op with
  | store d => exact h
  | announce =>
    simp only [step]
    split
    · exact h
    · exact hpost
  | request => exact hpost
  | connect =>
    intro l hl
    rcases List.mem_append.1 hl with hl | hl
    · exact h l hl
    · cases List.mem_singleton.1 hl
      exact Nat.zero_le _
  | recv i =>
    refine on_all i (fun l hl => ?_) h
    unfold Loop.recv
    split
    · split
      · exact hl
      · split
        · exact hl
        · dsimp only; omega
    · exact hl
  | tryRecv i =>
    refine on_all i (fun l hl => ?_) h
    unfold Loop.tryRecv
    split
    · split
      · exact hl
      · split
        · exact hl
        · dsimp only; omega
    · exact hl
  | look i =>
    refine on_all i (fun l hl => ?_) h
    unfold Loop.look
    split
    · split <;> exact hl
    · exact hl
  | intern i =>
    simp only [step, State.intern]
    split
    · exact h
    · rename_i l hl
      split
      · exact forall_set h (h l (List.mem_iff_getElem?.2 ⟨i, hl⟩))
      · exact h
  | send i =>
    simp only [step, State.send]
    split
    · exact h
    · rename_i l hl
      split
      · exact forall_set h (h l (List.mem_iff_getElem?.2 ⟨i, hl⟩))
      · exact h

/-- **C189.** For no page do more messages wait than the channel keeps. -/
theorem queue_bounded (cap : Nat) (v : Option D) (acts : List (Act D)) : ∀ l ∈ (run cap v acts).loops, l.queue ≤ cap := by
  have key : ∀ (acts : List (Act D)) (s : State D), (∀ l ∈ s.loops, l.queue ≤ cap) → ∀ l ∈ (acts.foldl (step cap) s).loops, l.queue ≤ cap := by
    intro acts
    induction acts with
    | nil => intro s h; exact h
    | cons o acts ih => intro s h; exact ih _ (step_bounded cap s o h)
  refine key acts (start v) fun l hl => ?_
  cases List.mem_singleton.1 hl
  exact Nat.zero_le _

/-- How much is left to do for a loop. -/
def Loop.left (l : Loop D) : Nat :=
  5 * l.queue + (if l.lagged then 5 else 0) +
    match l.phase with
    | .idle => 0
    | .drain => 4
    | .ready => 3
    | .found _ => 2
    | .built _ => 1

theorem post_left (cap : Nat) (l : Loop D) : (l.post cap).left ≤ l.left + 5 := by
  unfold Loop.post Loop.left
  split
  · dsimp only; omega
  · dsimp only
    cases l.lagged <;> simp <;> omega

def total (ls : List (Loop D)) : Nat := (ls.map Loop.left).sum

theorem post_total (cap : Nat) (ls : List (Loop D)) : total (ls.map (Loop.post cap)) ≤ total ls + 5 * ls.length := by
  induction ls with
  | nil => exact Nat.le_refl _
  | cons l ls ih =>
    have := post_left cap l
    simp only [total, List.map_cons, List.sum_cons, List.length_cons] at ih ⊢
    omega

theorem set_total {ls : List (Loop D)} {i : Nat} {l l' : Loop D} (hl : ls[i]? = some l) (h : l'.left < l.left) : total (ls.set i l') < total ls := by
  induction ls generalizing i with
  | nil => cases hl
  | cons x ls ih =>
    cases i with
    | zero =>
      cases hl
      simp only [total, List.set_cons_zero, List.map_cons, List.sum_cons]
      omega
    | succ i =>
      have := ih (i := i) hl
      simp only [total, List.set_cons_succ, List.map_cons, List.sum_cons] at this ⊢
      omega

/-- How much is left to do. -/
def left (s : State D) : Nat := s.posting * (5 * s.loops.length + 1) + total s.loops

theorem own_step (cap : Nat) (s : State D) (h : ¬ Quiet s) : ∃ o : Act D, Own o ∧ left (step cap s o) < left s := by
  by_cases h0 : s.posting = 0
  · have : ∃ l ∈ s.loops, ¬ (l.queue = 0 ∧ l.lagged = false ∧ l.phase = .idle) := by
      apply Classical.byContradiction
      intro hn
      refine h ⟨h0, fun l hl => Classical.byContradiction fun hx => hn ⟨l, hl, hx⟩⟩
    obtain ⟨l, hm, hl⟩ := this
    obtain ⟨i, hi⟩ := List.mem_iff_getElem?.1 hm
    have hon : ∀ f : Loop D → Loop D, (f l).left < l.left → left (s.on i f) < left s := by
      intro f hf
      have := set_total hi hf
      simp only [State.on, hi, left, h0, Nat.zero_mul, Nat.zero_add]
      exact this
    cases hp : l.phase with
    | idle =>
      refine ⟨.recv i, trivial, hon _ ?_⟩
      simp only [Loop.recv, hp]
      cases hg : l.lagged with
      | true => simp [Loop.left, hp, hg]
      | false =>
        by_cases hq : l.queue = 0
        · exact absurd ⟨hq, hg, hp⟩ hl
        · simp only [Bool.false_eq_true, if_false, if_neg hq, Loop.left, hp, hg]
          omega
    | drain =>
      refine ⟨.tryRecv i, trivial, hon _ ?_⟩
      simp only [Loop.tryRecv, hp]
      cases hg : l.lagged with
      | true => simp [Loop.left, hp, hg]
      | false =>
        by_cases hq : l.queue = 0
        · simp [Loop.left, hp, hg, hq]
        · simp only [Bool.false_eq_true, if_false, if_neg hq, Loop.left, hp, hg]
          omega
    | ready =>
      refine ⟨.look i, trivial, hon _ ?_⟩
      simp only [Loop.look, hp]
      cases hv : s.view <;> simp [Loop.left, hp]
    | found d =>
      refine ⟨.intern i, trivial, ?_⟩
      have : Loop.left { l with phase := .built d } < l.left := by simp [Loop.left, hp]
      have := set_total hi this
      simp only [step, State.intern, hi, hp, left, h0, Nat.zero_mul, Nat.zero_add]
      exact this
    | built d =>
      refine ⟨.send i, trivial, ?_⟩
      have : Loop.left (D := D) { l with phase := .idle } < l.left := by simp [Loop.left, hp]
      have := set_total hi this
      simp only [step, State.send, hi, hp, left, h0, Nat.zero_mul, Nat.zero_add]
      exact this
  · refine ⟨.announce, trivial, ?_⟩
    obtain ⟨n, hn⟩ : ∃ n, s.posting = n + 1 := ⟨s.posting - 1, by omega⟩
    have h1 := post_total cap s.loops
    have h2 : step cap s (.announce : Act D) = { s with posting := s.posting - 1, loops := s.loops.map (Loop.post cap) } := if_neg h0
    rw [h2]
    simp only [left, List.length_map, hn, Nat.add_sub_cancel, Nat.succ_mul]
    omega

/-- **C189.** From wherever things stand, the loops and the announcing can by themselves go on until nothing is left to do. -/
theorem settles_many (cap : Nat) (v : Option D) (acts : List (Act D)) : ∃ more : List (Act D), (∀ o ∈ more, Own o) ∧ Quiet (run cap v (acts ++ more)) := by
  have key : ∀ (n : Nat) (s : State D), left s ≤ n → ∃ more : List (Act D), (∀ o ∈ more, Own o) ∧ Quiet (more.foldl (step cap) s) := by
    intro n
    induction n with
    | zero =>
      intro s hs
      by_cases h : Quiet s
      · exact ⟨[], fun _ h => (nomatch h), h⟩
      · obtain ⟨o, -, h2⟩ := own_step cap s h
        omega
    | succ n ih =>
      intro s hs
      by_cases h : Quiet s
      · exact ⟨[], fun _ h => (nomatch h), h⟩
      · obtain ⟨o, h1, h2⟩ := own_step cap s h
        obtain ⟨more, h3, h4⟩ := ih (step cap s o) (by omega)
        refine ⟨o :: more, fun x hx => ?_, h4⟩
        rcases List.mem_cons.1 hx with rfl | hx
        · exact h1
        · exact h3 x hx
  obtain ⟨more, h1, h2⟩ := key _ (run cap v acts) (Nat.le_refl _)
  exact ⟨more, h1, by unfold run; rw [List.foldl_append]; exact h2⟩

/-- What of a loop may still become an outline. -/
def Loop.load (l : Loop D) : Nat :=
  l.queue + (if l.lagged then 1 else 0) +
    match l.phase with
    | .idle => 0
    | _ => 1

def loads (ls : List (Loop D)) : Nat := (ls.map Loop.load).sum

theorem set_loads {ls : List (Loop D)} {i : Nat} {l : Loop D} (l' : Loop D) (hl : ls[i]? = some l) : loads (ls.set i l') + l.load = loads ls + l'.load := by
  induction ls generalizing i with
  | nil => cases hl
  | cons x ls ih =>
    cases i with
    | zero =>
      cases hl
      simp only [loads, List.set_cons_zero, List.map_cons, List.sum_cons]
      omega
    | succ i =>
      have := ih (i := i) hl
      simp only [loads, List.set_cons_succ, List.map_cons, List.sum_cons] at this ⊢
      omega

theorem post_loads (cap : Nat) (ls : List (Loop D)) : loads (ls.map (Loop.post cap)) ≤ loads ls + ls.length := by
  induction ls with
  | nil => exact Nat.le_refl _
  | cons l ls ih =>
    have : (l.post cap).load ≤ l.load + 1 := by
      unfold Loop.post Loop.load
      split
      · dsimp only; omega
      · dsimp only
        cases l.lagged <;> simp <;> omega
    simp only [loads, List.map_cons, List.sum_cons, List.length_cons] at ih ⊢
    omega

/-- What was sent, and what may still be, against what was asked for. -/
structure Bound (s : State D) (a j : Nat) : Prop where
  pages : s.loops.length = 1 + j
  posting : s.posting ≤ a
  all : s.sent.length + loads s.loops + s.posting * (1 + j) ≤ a * (1 + j)

theorem on_bound {s : State D} {a j : Nat} (h : Bound s a j) (i : Nat) (f : Loop D → Loop D) (hf : ∀ l, (f l).load ≤ l.load) : Bound (s.on i f) a j := by
  obtain ⟨h1, h2, h3⟩ := h
  unfold State.on
  split
  · rename_i l hl
    have h4 := set_loads (f l) hl
    have h5 := hf l
    exact ⟨by simpa using h1, h2, by dsimp only; omega⟩
  · exact ⟨h1, h2, h3⟩

theorem step_bound (cap : Nat) (s : State D) (op : Act D) (a j : Nat) (h : Bound s a j) : Bound (step cap s op) (a + asks [op]) (j + joined [op]) := by
  have h' := h
  obtain ⟨h1, h2, h3⟩ := h
  cases op with
  | store d =>
    refine ⟨h1, by simp only [step, asks]; omega, ?_⟩
    simp only [step, asks, joined, Nat.zero_add, Nat.add_zero, Nat.succ_mul]
    omega
  | announce =>
    by_cases h0 : s.posting = 0
    · have e : step cap s (.announce : Act D) = s := if_pos h0
      rw [e]
      exact h'
    · have e : step cap s (.announce : Act D) = { s with posting := s.posting - 1, loops := s.loops.map (Loop.post cap) } := if_neg h0
      rw [e]
      obtain ⟨n, hn⟩ : ∃ n, s.posting = n + 1 := ⟨s.posting - 1, by omega⟩
      have h4 := post_loads cap s.loops
      rw [hn, Nat.succ_mul] at h3
      refine ⟨by simpa [joined] using h1, by dsimp only [asks]; omega, ?_⟩
      simp only [asks, joined, Nat.add_zero, hn, Nat.add_sub_cancel]
      omega
  | request =>
    have h4 := post_loads cap s.loops
    refine ⟨by simpa [step, joined] using h1, by simp only [step, asks]; omega, ?_⟩
    simp only [step, asks, joined, Nat.zero_add, Nat.add_zero, Nat.succ_mul]
    omega
  | connect =>
    refine ⟨by simp only [step, List.length_append, List.length_cons, List.length_nil, joined]; omega, h2, ?_⟩
    have h4 : loads (s.loops ++ [Loop.new]) = loads s.loops := by simp [loads, Loop.load, Loop.new]
    simp only [step, asks, joined, Nat.zero_add, Nat.add_zero, h4, ← Nat.add_assoc, Nat.mul_succ]
    omega
  | recv i =>
    refine on_bound h' i _ fun l => ?_
    unfold Loop.recv
    split
    · rename_i hp
      split
      · rename_i hl
        simp [Loop.load, hp, hl]
      · split
        · exact Nat.le_refl _
        · simp only [Loop.load, hp]
          omega
    · exact Nat.le_refl _
  | tryRecv i =>
    refine on_bound h' i _ fun l => ?_
    unfold Loop.tryRecv
    split
    · rename_i hp
      split
      · rename_i hl
        simp [Loop.load, hp, hl]
      · split
        · simp [Loop.load, hp]
        · simp only [Loop.load, hp]
          omega
    · exact Nat.le_refl _
  | look i =>
    refine on_bound h' i _ fun l => ?_
    unfold Loop.look
    split
    · rename_i hp
      split <;> simp [Loop.load, hp]
    · exact Nat.le_refl _
  | intern i =>
    simp only [step, State.intern, asks, joined, Nat.add_zero]
    split
    · exact h'
    · rename_i l hl
      split
      · rename_i d hp
        have h4 := set_loads { l with phase := .built d } hl
        have h5 : Loop.load { l with phase := .built d } = l.load := by simp [Loop.load, hp]
        exact ⟨by simpa using h1, h2, by dsimp only; omega⟩
      · exact h'
  | send i =>
    simp only [step, State.send, asks, joined, Nat.add_zero]
    split
    · exact h'
    · rename_i l hl
      split
      · rename_i d hp
        have h4 := set_loads { l with phase := .idle } hl
        have h5 : Loop.load (D := D) { l with phase := .idle } + 1 = l.load := by simp [Loop.load, hp]
        refine ⟨by simpa using h1, h2, ?_⟩
        simp only [List.length_append, List.length_cons, List.length_nil]
        omega
      · exact h'

/-- **C189.** No page sends more outlines than documents came and things were asked for. -/
theorem no_more_than_asked_many (cap : Nat) (v : Option D) (acts : List (Act D)) :
    (run cap v acts).sent.length ≤ asks acts * (1 + joined acts) := by
  have key : ∀ (acts : List (Act D)) (s : State D) (a j : Nat), Bound s a j → Bound (acts.foldl (step cap) s) (a + asks acts) (j + joined acts) := by
    intro acts
    induction acts with
    | nil => intro s a j h; exact h
    | cons o acts ih =>
      intro s a j h
      have h1 := ih _ _ _ (step_bound cap s o a j h)
      have e1 : asks (o :: acts) = asks [o] + asks acts := by cases o <;> simp [asks] <;> omega
      have e2 : joined (o :: acts) = joined [o] + joined acts := by cases o <;> simp [joined] <;> omega
      rw [e1, e2, ← Nat.add_assoc, ← Nat.add_assoc]
      exact h1
  have h := (key acts (start v) 0 0 ⟨rfl, Nat.le_refl _, Nat.le_refl _⟩).all
  rw [Nat.zero_add, Nat.zero_add] at h
  unfold run
  omega

/-- Two pages; the loop of the first has the first document in hand when the second comes, and the loop of the second page is faster. -/
def example1 : List (Act Nat) :=
  [.connect, .store 1, .announce, .recv 0, .tryRecv 0, .look 0, .store 2, .announce, .recv 1, .tryRecv 1, .tryRecv 1, .look 1, .intern 1, .send 1,
    .intern 0, .send 0]

/-- The first page goes on with the announcement of the second document. -/
def example2 : List (Act Nat) := example1 ++ [.recv 0, .tryRecv 0, .look 0, .intern 0, .send 0]

example : Asked example2 ∧ Quiet (run 8 none example2) ∧ shown (run 8 none example2) = some 2 ∧ (run 8 none example2).sent = [2, 1, 2] ∧ asks example2 = 2 ∧
    joined example2 = 1 := by
  refine ⟨.inl ⟨1, by decide⟩, ?_⟩
  unfold Quiet
  decide

/-- **C189 fails** with two pages: the outline of an older document is shown after that of a newer one. -/
theorem goes_back : stored example1 = [1, 2] ∧ (run 8 none example1).sent = [2, 1] := by decide

/-- **C189 fails** with two pages: nobody is about to send an outline, and the places kept are not those of the outline that is shown. -/
theorem places_swapped : ∃ acts : List (Act Nat), (∀ l ∈ (run 8 none acts).loops, ∀ d, l.phase ≠ .built d) ∧
    (run 8 none acts).interned ≠ shown (run 8 none acts) := by
  refine ⟨[.connect, .store 1, .announce, .recv 0, .tryRecv 0, .look 0, .intern 0, .store 2, .announce, .recv 1, .tryRecv 1, .tryRecv 1, .look 1,
    .intern 1, .send 1, .send 0], ?_, by decide⟩
  intro l hl d hd
  revert l
  simp [run, start, step, State.on, State.intern, State.send, Loop.new, Loop.post, Loop.recv, Loop.tryRecv, Loop.look]

end Tinymist.OutlineMany
