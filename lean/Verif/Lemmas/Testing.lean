import Verif.Spec.Testing
/-! Cases that do not share files do not disturb each other. -/
namespace Tinymist.Testing
variable {B : Type} [DecidableEq B]

/-- What a case may look at: the files `O` and whether the name `e` is taken. -/
def Agree (O : File → Prop) (e : Option Name) (s s' : St B) : Prop :=
  (∀ f, O f → s.fs f = s'.fs f) ∧ ∀ n, e = some n → (n ∈ s.names ↔ n ∈ s'.names)

/-- A step that looks at nothing else, and what it may change. -/
structure Mild (O : File → Prop) (e : Option Name) (u : St B → St B) : Prop where
  agree : ∀ s s', Agree O e s s' → Agree O e (u s) (u s')
  others : ∀ s f, ¬ O f → (u s).fs f = s.fs f
  names : ∀ s n, e ≠ some n → (n ∈ (u s).names ↔ n ∈ s.names)
  grow : ∀ s, ∀ n ∈ s.names, n ∈ (u s).names
  failed : ∃ b : Bool, ∀ s, (u s).failed = (s.failed || b)
  diags : ∃ l : List Bool, ∀ s, (u s).diags = s.diags ++ l

/-- A case that does so. -/
def Local (O : File → Prop) (e : Option Name) : Prog B → Prop
  | .done => True
  | .act u n => (∀ b, Mild O e (fun s => u s b)) ∧ (∀ s s' b, Agree O e s s' → n s b = n s' b) ∧ ∀ s b, Local O e (n s b)

/-- The whole case, alone. -/
def Prog.eval : Prog B → St B → St B
  | .done, s => s
  | .act u n, s => (n s false).eval (u s false)

/-- One step, alone. -/
def Prog.one (c : Prog B × St B) (b : Bool) : Prog B × St B :=
  match c with
  | (.done, s) => (.done, s)
  | (.act u n, s) => (n s b, u s b)

/-- Some steps, alone. -/
def Prog.solo (l : List Bool) (c : Prog B × St B) : Prog B × St B := l.foldl Prog.one c

theorem one_eval (c : Prog B × St B) : (Prog.one c false).1.eval (Prog.one c false).2 = c.1.eval c.2 := by
  obtain ⟨p, s⟩ := c
  cases p <;> rfl

theorem solo_eval (l : List Bool) (hl : ∀ b ∈ l, b = false) (c : Prog B × St B) :
    (Prog.solo l c).1.eval (Prog.solo l c).2 = c.1.eval c.2 := by
  induction l generalizing c with
  | nil => rfl
  | cons b l ih =>
    have : b = false := hl b (by simp)
    subst this
    exact (ih (fun x hx => hl x (List.mem_cons_of_mem _ hx)) _).trans (one_eval c)

theorem local_one {O : File → Prop} {e : Option Name} {c : Prog B × St B} (b : Bool) (h : Local O e c.1) :
    Local O e (Prog.one c b).1 := by
  obtain ⟨p, s⟩ := c
  cases p with
  | done => trivial
  | act u n => exact h.2.2 s b

/-- Case `i` has come as far as it would have alone. -/
structure Sim (O : Nat → File → Prop) (e : Nat → Option Name) (ps : List (Prog B)) (s0 : St B) (c : List (Prog B) × St B)
    (w : Nat → Prog B × St B) (flags : List Bool) : Prop where
  len : c.1.length = ps.length
  start : ∀ i p, ps[i]? = some p → (∃ l, w i = Prog.solo l (p, s0) ∧ ∀ b ∈ l, b ∈ flags) ∧ Local (O i) (e i) (w i).1
  prog : ∀ i, i < ps.length → c.1[i]? = some (w i).1
  agree : ∀ i, i < ps.length → Agree (O i) (e i) c.2 (w i).2
  others : ∀ f, (∀ i, i < ps.length → ¬ O i f) → c.2.fs f = s0.fs f
  failed : c.2.failed = true ↔ s0.failed = true ∨ ∃ i, i < ps.length ∧ (w i).2.failed = true
  diags : true ∈ c.2.diags ↔ true ∈ s0.diags ∨ ∃ i, i < ps.length ∧ true ∈ (w i).2.diags

theorem sim_init {O : Nat → File → Prop} {e : Nat → Option Name} {ps : List (Prog B)} {s0 : St B}
    (hl : ∀ i p, ps[i]? = some p → Local (O i) (e i) p) :
    Sim O e ps s0 (ps, s0) (fun i => ((ps[i]?).getD .done, s0)) [] where
  len := rfl
  start := fun i p h => by simp only [h, Option.getD_some]; exact ⟨⟨[], rfl, fun _ h => by cases h⟩, hl i p h⟩
  prog := fun i h => by simp [List.getElem?_eq_getElem h]
  agree := fun i _ => ⟨fun _ _ => rfl, fun _ _ => Iff.rfl⟩
  others := fun _ _ => rfl
  failed := by
    constructor
    · exact Or.inl
    · rintro (h | ⟨_, _, h⟩) <;> exact h
  diags := by
    constructor
    · exact Or.inl
    · rintro (h | ⟨_, _, h⟩) <;> exact h

theorem sim_step {O : Nat → File → Prop} {e : Nat → Option Name} {ps : List (Prog B)} {s0 : St B} {c : List (Prog B) × St B}
    {w : Nat → Prog B × St B} {flags : List Bool} (h : Sim O e ps s0 c w flags) (hdis : ∀ i j f, i < ps.length → j < ps.length → O i f → O j f → i = j)
    (hname : ∀ i j n, i < ps.length → j < ps.length → e i = some n → e j = some n → i = j) (i : Nat) (b : Bool) :
    Sim O e ps s0 (step i b c) (if i < ps.length then fun j => if j = i then Prog.one (w i) b else w j else w) (b :: flags) := by
  have hmore : ∀ i p, ps[i]? = some p → (∃ l, w i = Prog.solo l (p, s0) ∧ ∀ x ∈ l, x ∈ b :: flags) ∧ Local (O i) (e i) (w i).1 := by
    intro i p hp
    obtain ⟨⟨l, h1, h2⟩, h3⟩ := h.start i p hp
    exact ⟨⟨l, h1, fun x hx => List.mem_cons_of_mem _ (h2 x hx)⟩, h3⟩
  have h : Sim O e ps s0 c w (b :: flags) := { h with start := hmore }
  by_cases hi : i < ps.length
  · rw [if_pos hi]
    have hp := h.prog i hi
    cases hw : (w i).1 with
    | done =>
      have hs : step i b c = c := by unfold step; rw [hp, hw]
      rw [hs]
      have hone : Prog.one (w i) b = w i := by
        generalize w i = x at hw
        obtain ⟨p, s⟩ := x
        simp only at hw
        subst hw
        rfl
      rw [hone]
      have : (fun j => if j = i then w i else w j) = w := by
        funext j; split
        · rename_i hj; rw [hj]
        · rfl
      rw [this]; exact h
    | act u n =>
      have hs : step i b c = (c.1.set i (n c.2 b), u c.2 b) := by unfold step; rw [hp, hw]
      have hpi : ps[i]? = some ps[i] := List.getElem?_eq_getElem hi
      have hloc := (h.start i _ hpi).2
      rw [hw] at hloc
      obtain ⟨hm, hn, -⟩ := hloc
      have hm := hm b
      have hag := h.agree i hi
      have hone : Prog.one (w i) b = (n (w i).2 b, u (w i).2 b) := by
        generalize w i = x at hw
        obtain ⟨p, s⟩ := x
        simp only at hw
        subst hw
        rfl
      rw [hs]
      refine ⟨?_, ?_, ?_, ?_, ?_, ?_, ?_⟩
      · rw [List.length_set]; exact h.len
      · intro j p hj
        by_cases hji : j = i
        · subst hji
          simp only [if_true]
          obtain ⟨⟨l, h1, h2⟩, h3⟩ := h.start j p hj
          refine ⟨⟨l ++ [b], ?_, ?_⟩, local_one b h3⟩
          · rw [h1]; unfold Prog.solo; rw [List.foldl_append]; rfl
          · intro x hx
            rcases List.mem_append.mp hx with hx | hx
            · exact h2 x hx
            · rw [List.mem_singleton.mp hx]; simp
        · simp only [hji, if_false]
          exact h.start j p hj
      · intro j hj
        by_cases hji : j = i
        · subst hji
          simp only [if_true]
          rw [List.getElem?_set_self (by rw [h.len]; exact hj), hone, hn _ _ b hag]
        · simp only [hji, if_false]
          rw [List.getElem?_set_ne (fun x => hji x.symm)]
          exact h.prog j hj
      · intro j hj
        by_cases hji : j = i
        · subst hji
          simp only [if_true]
          rw [hone]
          exact hm.agree _ _ hag
        · simp only [hji, if_false]
          constructor
          · intro f hf
            rw [hm.others _ _ (fun hx => hji (hdis j i f hj hi hf hx))]
            exact (h.agree j hj).1 f hf
          · intro m hm'
            rw [hm.names _ _ (fun hx => hji (hname j i m hj hi hm' hx))]
            exact (h.agree j hj).2 m hm'
      · intro f hf
        rw [hm.others _ _ (hf i hi)]
        exact h.others f hf
      · obtain ⟨b', hb⟩ := hm.failed
        rw [hb]
        simp only [Bool.or_eq_true]
        rw [h.failed]
        constructor
        · rintro ((h1 | ⟨j, hj, h1⟩) | h1)
          · exact Or.inl h1
          · refine Or.inr ⟨j, hj, ?_⟩
            by_cases hji : j = i
            · subst hji
              simp only [if_true]; rw [hone]
              simp only [hb, h1, Bool.true_or]
            · simp only [hji, if_false]; exact h1
          · refine Or.inr ⟨i, hi, ?_⟩
            simp only [if_true]; rw [hone]
            simp only [hb, h1, Bool.or_true]
        · rintro (h1 | ⟨j, hj, h1⟩)
          · exact Or.inl (Or.inl h1)
          · by_cases hji : j = i
            · subst hji
              simp only [if_true] at h1; rw [hone] at h1
              simp only [hb, Bool.or_eq_true] at h1
              rcases h1 with h1 | h1
              · exact Or.inl (Or.inr ⟨j, hj, h1⟩)
              · exact Or.inr h1
            · simp only [hji, if_false] at h1
              exact Or.inl (Or.inr ⟨j, hj, h1⟩)
      · obtain ⟨l, hb⟩ := hm.diags
        rw [hb]
        simp only [List.mem_append]
        rw [h.diags]
        constructor
        · rintro ((h1 | ⟨j, hj, h1⟩) | h1)
          · exact Or.inl h1
          · refine Or.inr ⟨j, hj, ?_⟩
            by_cases hji : j = i
            · subst hji
              simp only [if_true]; rw [hone]
              simp only [hb, List.mem_append, h1, true_or]
            · simp only [hji, if_false]; exact h1
          · refine Or.inr ⟨i, hi, ?_⟩
            simp only [if_true]; rw [hone]
            simp only [hb, List.mem_append, h1, or_true]
        · rintro (h1 | ⟨j, hj, h1⟩)
          · exact Or.inl (Or.inl h1)
          · by_cases hji : j = i
            · subst hji
              simp only [if_true] at h1; rw [hone] at h1
              simp only [hb, List.mem_append] at h1
              rcases h1 with h1 | h1
              · exact Or.inl (Or.inr ⟨j, hj, h1⟩)
              · exact Or.inr h1
            · simp only [hji, if_false] at h1
              exact Or.inl (Or.inr ⟨j, hj, h1⟩)
  · rw [if_neg hi]
    have hn : c.1[i]? = none := List.getElem?_eq_none (by rw [h.len]; omega)
    have hs : step i b c = c := by unfold step; rw [hn]
    rw [hs]; exact h

theorem sim_run {O : Nat → File → Prop} {e : Nat → Option Name} {ps : List (Prog B)} {s0 : St B}
    (hl : ∀ i p, ps[i]? = some p → Local (O i) (e i) p) (hdis : ∀ i j f, i < ps.length → j < ps.length → O i f → O j f → i = j)
    (hname : ∀ i j n, i < ps.length → j < ps.length → e i = some n → e j = some n → i = j) (sched : List (Nat × Bool)) :
    ∃ w, Sim O e ps s0 (run sched (ps, s0)) w (sched.map (·.2)).reverse := by
  have key : ∀ (sched : List (Nat × Bool)) c w fl, Sim O e ps s0 c w fl →
      ∃ w, Sim O e ps s0 (run sched c) w ((sched.map (·.2)).reverse ++ fl) := by
    intro sched
    induction sched with
    | nil => intro c w fl h; exact ⟨w, h⟩
    | cons x sched ih =>
      intro c w fl h
      have := ih _ _ _ (sim_step h hdis hname x.1 x.2)
      rw [List.map_cons, List.reverse_cons, List.append_assoc]
      exact this
  simpa using key sched _ _ _ (sim_init hl)

/-- When all have ended and nothing failed, every case has done what it would have done alone. -/
theorem sim_end {O : Nat → File → Prop} {e : Nat → Option Name} {ps : List (Prog B)} {s0 : St B} {c : List (Prog B) × St B}
    {w : Nat → Prog B × St B} {flags : List Bool} (h : Sim O e ps s0 c w flags) (hf : ∀ b ∈ flags, b = false) (hd : Ended c)
    (i : Nat) (p : Prog B) (hp : ps[i]? = some p) : (w i).2 = p.eval s0 := by
  have hi : i < ps.length := by
    rcases Nat.lt_or_ge i ps.length with h | h
    · exact h
    · rw [List.getElem?_eq_none h] at hp; cases hp
  obtain ⟨⟨l, h1, h2⟩, -⟩ := h.start i p hp
  have h3 := hd _ (List.mem_of_getElem? (h.prog i hi))
  have h4 := solo_eval l (fun b hb => hf b (h2 b hb)) (p, s0)
  rw [← h1, h3] at h4
  exact h4

/-! The runner's cases -/

/-- The files of an example. -/
def Own (e : Name) (f : File) : Prop := ∃ k, f = refFile k e ∨ f = tmpFile k e ∨ f = hashFile k e

theorem mild_keep (O : File → Prop) (e : Option Name) {u : St B → St B} (h1 : ∀ s, (u s).fs = s.fs) (h2 : ∀ s, (u s).names = s.names)
    (h3 : ∃ b : Bool, ∀ s, (u s).failed = (s.failed || b)) (h4 : ∃ l : List Bool, ∀ s, (u s).diags = s.diags ++ l) : Mild O e u where
  agree := fun s s' h => ⟨fun f hf => by rw [h1, h1]; exact h.1 f hf, fun n hn => by rw [h2, h2]; exact h.2 n hn⟩
  others := fun s f _ => by rw [h1]
  names := fun s n _ => by rw [h2]
  grow := fun s n hn => by rw [h2]; exact hn
  failed := h3
  diags := h4

theorem mild_id (O : File → Prop) (e : Option Name) : Mild (B := B) O e (fun s => s) :=
  mild_keep O e (fun _ => rfl) (fun _ => rfl) ⟨false, fun _ => by simp⟩ ⟨[], fun _ => by simp⟩

theorem mild_fail (O : File → Prop) (e : Option Name) (ex : Bool) (n : Name) : Mild (B := B) O e (St.fail ex n) :=
  mild_keep O e (fun _ => rfl) (fun _ => rfl) ⟨true, fun _ => by simp [St.fail]⟩ ⟨[], fun _ => by simp [St.fail]⟩
theorem mild_pass (O : File → Prop) (e : Option Name) (ex : Bool) (n : Name) : Mild (B := B) O e (St.pass ex n) :=
  mild_keep O e (fun _ => rfl) (fun _ => rfl) ⟨false, fun _ => by simp [St.pass]⟩ ⟨[], fun _ => by simp [St.pass]⟩
theorem mild_start (O : File → Prop) (e : Option Name) (ex : Bool) (n : Name) : Mild (B := B) O e (St.start ex n) :=
  mild_keep O e (fun _ => rfl) (fun _ => rfl) ⟨false, fun _ => by simp [St.start]⟩ ⟨[], fun _ => by simp [St.start]⟩
theorem mild_differs (O : File → Prop) (e : Option Name) (n : Name) : Mild (B := B) O e (St.differs n) :=
  mild_keep O e (fun _ => rfl) (fun _ => rfl) ⟨false, fun _ => by simp [St.differs]⟩ ⟨[], fun _ => by simp [St.differs]⟩
theorem mild_diag (O : File → Prop) (e : Option Name) (b : Bool) : Mild (B := B) O e (St.diag b) :=
  mild_keep O e (fun _ => rfl) (fun _ => rfl) ⟨false, fun _ => by simp [St.diag]⟩ ⟨[b], fun _ => by simp [St.diag]⟩

theorem mild_write {O : File → Prop} (e : Option Name) {f : File} (hf : O f) (b : Option B) (c : Bool) :
    Mild O e (fun s => if c then s else s.write f b) := by
  cases c
  · refine ⟨?_, ?_, fun _ _ _ => Iff.rfl, fun _ _ h => h, ⟨false, fun _ => by simp [St.write]⟩, ⟨[], fun _ => by simp [St.write]⟩⟩
    · intro s s' h
      refine ⟨fun x hx => ?_, h.2⟩
      simp only [St.write, Bool.false_eq_true, if_false]
      split
      · rfl
      · exact h.1 x hx
    · intro s x hx
      simp only [St.write, Bool.false_eq_true, if_false]
      rw [if_neg]
      intro h
      subst h
      exact hx hf
  · exact mild_id O e

theorem local_say {O : File → Prop} {e : Option Name} {f : St B → St B} (hf : Mild O e f) {p : Prog B} (hp : Local O e p) :
    Local O e (say f p) := ⟨fun _ => hf, fun _ _ _ _ => rfl, fun _ _ => hp⟩

theorem local_writeRef (hash : B → B) (e : Name) (k : Kind) (d : B) {cont : Bool → Prog B}
    (hc : ∀ b, Local (Own e) (some e) (cont b)) : Local (Own e) (some e) (writeRef hash e k d cont) := by
  refine ⟨fun _ => mild_id _ _, fun _ _ _ _ => rfl, fun _ b => ?_⟩
  simp only
  split
  · exact hc _
  · refine ⟨fun b => mild_write (some e) ⟨k, Or.inl rfl⟩ _ b, fun _ _ _ _ => rfl, fun _ b => ?_⟩
    simp only
    split
    · exact hc _
    · exact ⟨fun b => mild_write (some e) ⟨k, Or.inr (Or.inr rfl)⟩ _ b, fun _ _ _ _ => rfl, fun _ b => hc _⟩

theorem local_settle (hash : B → B) (e : Name) (k : Kind) (d : B) (equal : Bool) {cont : Bool → Prog B}
    (hc : ∀ b, Local (Own e) (some e) (cont b)) : Local (Own e) (some e) (settle hash e k d equal cont) := by
  have ht : Own e (tmpFile k e) := ⟨k, Or.inr (Or.inl rfl)⟩
  refine ⟨fun _ => mild_id _ _, fun s s' _ h => by simp only [h.1 _ ht], fun s b => ?_⟩
  simp only
  split
  · exact hc _
  · split
    · refine ⟨fun b => mild_write (some e) ht none b, fun s s' _ h => by simp only [h.1 _ ht], fun s b => ?_⟩
      simp only
      split
      · exact hc _
      · split
        · exact hc _
        · exact local_writeRef hash e k d hc
    · split
      · exact hc _
      · exact local_writeRef hash e k d hc

theorem local_updateExample (hash : B → B) (update : Bool) (e : Name) (k : Kind) (d : B) {cont : Bool → Prog B}
    (hc : ∀ b, Local (Own e) (some e) (cont b)) : Local (Own e) (some e) (updateExample hash update e k d cont) := by
  have hh : Own e (hashFile k e) := ⟨k, Or.inr (Or.inr rfl)⟩
  refine ⟨fun _ => mild_id _ _, fun s s' _ h => by simp only [h.1 _ hh], fun s b => ?_⟩
  simp only
  split
  · exact hc _
  · split
    · exact local_settle hash e k d _ hc
    · refine ⟨fun _ => mild_id _ _, fun s s' _ h => by simp only [h.1 _ hh], fun s b => ?_⟩
      simp only
      split
      · exact hc _
      · split
        · exact hc _
        · split
          · exact local_settle hash e k d _ hc
          · split
            · exact local_settle hash e k d _ hc
            · refine ⟨fun b => mild_write (some e) ⟨k, Or.inr (Or.inl rfl)⟩ _ b, fun _ _ _ _ => rfl, fun _ b => ?_⟩
              simp only
              split
              · exact hc _
              · exact local_say (mild_fail ..) (local_say (mild_differs ..) (hc _))

theorem local_checkResult (e : Name) {cont : Bool → Prog B} (hc : ∀ b, Local (Own e) (some e) (cont b)) (err : Bool) :
    Local (Own e) (some e) (checkResult e cont err) := by
  unfold checkResult
  split
  · exact local_say (mild_fail ..) (hc _)
  · exact hc _

theorem local_render (hash : B → B) (update : Bool) (e : Name) (k : Kind) (out : Option B) {cont : Bool → Prog B}
    (hc : ∀ b, Local (Own e) (some e) (cont b)) : Local (Own e) (some e) (render hash update e k out cont) := by
  unfold render
  split
  · exact local_updateExample hash update e k _ (local_checkResult e hc)
  · split
    · exact local_checkResult e hc _
    · exact local_say (mild_diag ..) (local_checkResult e hc _)

theorem local_build {O : File → Prop} {e : Option Name} (w b : Bool) {p : Prog B} (hp : Local O e p) : Local O e (build w b p) := by
  unfold build
  have : Local O e (if b then say (St.diag true) p else p) := by
    split
    · exact local_say (mild_diag ..) hp
    · exact hp
  simp only
  split
  · exact local_say (mild_diag ..) this
  · exact this

theorem local_finish {O : File → Prop} {e : Option Name} (n : Name) (b : Bool) : Local (B := B) O e (finish n b) := by
  unfold finish
  split
  · exact local_say (mild_fail ..) trivial
  · exact local_say (mild_pass ..) trivial

theorem local_runHtml (hash : B → B) (update : Bool) (x : Example B) (b : Bool) :
    Local (Own x.name) (some x.name) (runHtml hash update x b) := by
  unfold runHtml
  split
  · exact local_finish ..
  · exact local_build _ _ (local_finish ..)
  · exact local_build _ _ (local_render hash update _ _ _ (fun _ => local_finish ..))

theorem local_runExample (hash : B → B) (update : Bool) (x : Example B) :
    Local (Own x.name) (some x.name) (runExample hash update x) := by
  refine local_say (mild_start ..) ⟨fun _ => ?_, ?_, ?_⟩
  · refine ⟨?_, ?_, ?_, ?_, ⟨false, fun s => ?_⟩, ⟨[], fun s => ?_⟩⟩
    · intro s s' h
      have hiff := h.2 x.name rfl
      refine ⟨fun f hf => ?_, fun n hn => ?_⟩
      · have := h.1 f hf
        simp only
        split <;> split <;> exact this
      · cases hn
        simp only
        constructor
        · intro _; split
          · assumption
          · simp
        · intro _; split
          · assumption
          · simp
    · intro s f _; simp only; split <;> rfl
    · intro s n hn
      simp only
      split
      · rfl
      · simp only [List.mem_cons]
        constructor
        · rintro (h | h)
          · exact absurd (by rw [h]) hn
          · exact h
        · exact Or.inr
    · intro s n hn
      simp only
      split
      · exact hn
      · exact List.mem_cons_of_mem _ hn
    · simp only; split <;> simp
    · simp only; split <;> simp
  · intro s s' _ h
    have hiff := h.2 x.name rfl
    by_cases hm : x.name ∈ s.names
    · simp only [hm, hiff.mp hm, if_true]
    · simp only [hm, mt hiff.mpr hm, if_false]
  · intro s _
    simp only
    split
    · exact local_say (mild_fail ..) trivial
    · split
      · exact local_build _ _ (local_finish ..)
      · exact local_build _ _ (local_render hash update _ _ _ (local_runHtml hash update x))

/-- The files and the name of a case. -/
def Case.own (c : Case B) (f : File) : Prop := ∃ x, c.example? = some x ∧ Own x.name f

theorem local_runCase (hash : B → B) (update : Bool) (c : Case B) :
    Local c.own (c.example?.map (·.name)) (runCase hash update c) := by
  have ex : ∀ x : Example B, c.example? = some x → Local c.own (c.example?.map (·.name)) (runExample hash update x) := by
    intro x hx
    have h := local_runExample hash update x
    have hown : c.own = Own x.name := by
      funext f
      simp [Case.own, hx]
    rw [hown, hx]
    exact h
  cases c with
  | test n err =>
    cases err with
    | none => exact local_say (mild_start ..) (local_say (mild_pass ..) trivial)
    | some m => exact local_say (mild_start ..) (local_say (mild_diag ..) (local_say (mild_fail ..) trivial))
  | panic n err =>
    cases err with
    | none => exact local_say (mild_start ..) (local_say (mild_fail ..) trivial)
    | some m =>
      refine local_say (mild_start ..) ?_
      split
      · exact local_say (mild_pass ..) trivial
      · exact local_say (mild_diag ..) (local_say (mild_fail ..) trivial)
  | exampleFn n x =>
    cases x with
    | none => exact local_say (mild_fail ..) trivial
    | some x => exact ex x rfl
  | file x => exact ex x rfl

end Tinymist.Testing
