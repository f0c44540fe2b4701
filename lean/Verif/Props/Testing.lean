import Verif.Lemmas.TestingEval
/-! C76, C77: the test runner. -/
namespace Tinymist.Testing
variable {B : Type} [DecidableEq B]

/-! Names -/

theorem dropWhile_all {A : Type} {p : A → Bool} {l : List A} (h : ∀ a ∈ l, p a = true) : l.dropWhile p = [] := by
  induction l with
  | nil => rfl
  | cons a l ih =>
    rw [List.dropWhile_cons_of_pos (h a (by simp))]
    exact ih fun b hb => h b (List.mem_cons_of_mem _ hb)

theorem stem_plain {e : Name} (h : '.' ∉ e) : stem e = e := by
  have : e.reverse.dropWhile (· ≠ '.') = [] := by
    apply dropWhile_all
    intro c hc
    simp only [decide_eq_true_eq]
    rintro rfl
    exact h (List.mem_reverse.mp hc)
  unfold stem; rw [this]

theorem ref_eq {e : Name} (h : '.' ∉ e) (k : Kind) : refFile k e = imageOf k e := by
  cases k <;> simp [refFile, imageOf, stem_plain h, ext]
theorem tmp_eq {e : Name} (h : '.' ∉ e) (k : Kind) : tmpFile k e = otherOf k e := by
  cases k <;> simp [tmpFile, otherOf, stem_plain h, ext]
theorem hash_eq {e : Name} (h : '.' ∉ e) (k : Kind) : hashFile k e = hashOf k e := by
  simp [hashFile, hashOf, stem_plain h]

/-- The part of a file name before the first dot. -/
theorem own_head {e : Name} (h : '.' ∉ e) {f : File} (hf : Own e f) : f.name.takeWhile (· ≠ '.') = e := by
  have key : ∀ t : Name, (e ++ '.' :: t).takeWhile (· ≠ '.') = e := by
    intro t
    rw [List.takeWhile_append_of_pos]
    · simp
    · intro c hc
      simp only [decide_eq_true_eq]
      rintro rfl
      exact h hc
  obtain ⟨k, hf | hf | hf⟩ := hf <;> cases k <;> rw [hf] <;>
    simp only [refFile, tmpFile, hashFile, stem_plain h, ext, List.append_assoc, List.cons_append] <;> exact key _

theorem own_disjoint {e e' : Name} (h : '.' ∉ e) (h' : '.' ∉ e') {f : File} (hf : Own e f) (hf' : Own e' f) : e = e' := by
  rw [← own_head h hf, ← own_head h' hf']

theorem contains_iff (w text : Name) : contains w text = true ↔ Mentions w text := by
  induction text with
  | nil =>
    simp only [contains, List.isEmpty_iff, Mentions]
    constructor
    · rintro rfl; exact ⟨[], [], rfl⟩
    · rintro ⟨a, b, h⟩
      have := congrArg List.length h
      simp at this
      exact List.eq_nil_of_length_eq_zero (by omega)
  | cons c t ih =>
    simp only [contains, Bool.or_eq_true, ih, List.isPrefixOf_iff_prefix]
    constructor
    · rintro (⟨b, h⟩ | ⟨a, b, h⟩)
      · exact ⟨[], b, by simpa using h.symm⟩
      · exact ⟨c :: a, b, by rw [h]; rfl⟩
    · rintro ⟨a, b, h⟩
      cases a with
      | nil => left; exact ⟨b, by simpa using h.symm⟩
      | cons x a =>
        right
        simp only [List.cons_append, List.cons.injEq] at h
        exact ⟨a, b, h.2⟩

/-! All cases together -/

theorem filterMap_index {A : Type} {g : A → Option Name} {l : List A} (h : (l.filterMap g).Nodup) {i j : Nat} {a b : A} {n : Name}
    (hi : l[i]? = some a) (hj : l[j]? = some b) (ha : g a = some n) (hb : g b = some n) : i = j := by
  rw [List.nodup_iff_pairwise_ne, List.pairwise_filterMap, List.pairwise_iff_getElem] at h
  obtain ⟨hi', hi⟩ := List.getElem?_eq_some_iff.mp hi
  obtain ⟨hj', hj⟩ := List.getElem?_eq_some_iff.mp hj
  rcases Nat.lt_trichotomy i j with hlt | heq | hlt
  · have := h i j hi' hj' hlt n (by rw [hi]; exact ha) n (by rw [hj]; exact hb)
    exact absurd rfl this
  · exact heq
  · have := h j i hj' hi' hlt n (by rw [hj]; exact hb) n (by rw [hi]; exact ha)
    exact absurd rfl this

/-- The files and the name of case `i`. -/
def ownAt (cases : List (Case B)) (i : Nat) (f : File) : Prop := ∃ c, cases[i]? = some c ∧ c.own f
def nameAt (cases : List (Case B)) (i : Nat) : Option Name := cases[i]?.bind fun c => c.example?.map (·.name)

theorem dotless_at {cases : List (Case B)} (hd : ∀ n ∈ exampleNames cases, '.' ∉ n) {i : Nat} {c : Case B} {x : Example B}
    (hc : cases[i]? = some c) (hx : c.example? = some x) : '.' ∉ x.name :=
  hd _ (List.mem_filterMap.mpr ⟨c, List.mem_of_getElem? hc, by simp [hx]⟩)

/-- The cases, each as if alone. -/
theorem runAll_sim (hash : B → B) (update : Bool) {cases : List (Case B)} (fs : File → Option B) (sched : List (Nat × Bool))
    (hn : (exampleNames cases).Nodup) (hd : ∀ n ∈ exampleNames cases, '.' ∉ n) :
    ∃ w, Sim (ownAt cases) (nameAt cases) (cases.map (runCase hash update)) (init fs) (runAll hash update cases fs sched) w
      (sched.map (·.2)).reverse := by
  refine sim_run ?_ ?_ ?_ sched
  · intro i p hp
    rw [List.getElem?_map, Option.map_eq_some_iff] at hp
    obtain ⟨c, hc, rfl⟩ := hp
    have h := local_runCase hash update c
    have e1 : ownAt cases i = c.own := by funext f; simp [ownAt, hc]
    have e2 : nameAt cases i = c.example?.map (·.name) := by simp [nameAt, hc]
    rw [e1, e2]; exact h
  · rintro i j f - - ⟨c, hc, x, hx, hf⟩ ⟨c', hc', x', hx', hf'⟩
    have := own_disjoint (dotless_at hd hc hx) (dotless_at hd hc' hx') hf hf'
    exact filterMap_index hn hc hc' (n := x.name) (by simp [hx]) (by simp [hx', this])
  · intro i j n _ _ h1 h2
    simp only [nameAt, Option.bind_eq_some_iff] at h1 h2
    obtain ⟨c, hc, h1⟩ := h1
    obtain ⟨c', hc', h2⟩ := h2
    exact filterMap_index hn hc hc' h1 h2

theorem noFailure_flags {sched : List (Nat × Bool)} (h : NoFailure sched) : ∀ b ∈ (sched.map (·.2)).reverse, b = false := by
  intro b hb
  obtain ⟨x, hx, rfl⟩ := List.mem_map.mp (List.mem_reverse.mp hb)
  exact h x hx

theorem exampleOk_iff {hash : B → B} {update : Bool} {fs : File → Option B} {x : Example B} (h : '.' ∉ x.name) :
    ExampleOk hash update fs x ↔ (∃ d, x.paged = some (some d) ∧ Fine hash update fs x.name .paged d) ∧
        ∀ w out, x.html = some (w, out) → ∃ d, out = some (some d) ∧ Fine hash update fs x.name .html d := by
  simp only [ExampleOk, OutputOk, Fine, hash_eq h]

/-- One case alone: it fails exactly if it should, and there are no errors without a failure. -/
theorem case_alone (hash : B → B) (update : Bool) (fs : File → Option B) (c : Case B) (hd : ∀ x, c.example? = some x → '.' ∉ x.name) :
    (((runCase hash update c).eval (init fs)).failed = true ↔ ¬ CaseOk hash update fs c) ∧
    Sound ((runCase hash update c).eval (init fs)) := by
  have ex : ∀ x : Example B, '.' ∉ x.name →
      (((runExample hash update x).eval (init fs)).failed = true ↔ ¬ ExampleOk hash update fs x) ∧
      Sound ((runExample hash update x).eval (init fs)) := by
    intro x hx
    rw [eval_example hash update x (init fs) (by simp [init]), exampleOk_iff hx]
    refine ⟨?_, exampleDone_sound _ _ _ _ (fun h => by simp [init, St.start] at h)⟩
    rw [exampleDone_failed]
    simp only [init, St.start, Bool.false_eq_true, false_or]
  cases c with
  | test n err =>
    cases err with
    | none => exact ⟨by simp [runCase, eval_say, Prog.eval, CaseOk, init, St.start, St.pass], fun h => by
        simp [runCase, eval_say, Prog.eval, init, St.start, St.pass] at h⟩
    | some m => exact ⟨by simp [runCase, eval_say, Prog.eval, CaseOk, St.fail], fun _ => rfl⟩
  | panic n err =>
    cases err with
    | none => exact ⟨by simp [runCase, eval_say, Prog.eval, CaseOk, St.fail], fun _ => rfl⟩
    | some m =>
      by_cases hm : m.all (contains panicWord) = true
      · have hm' : ∀ t ∈ m, Mentions "panic".toList t := fun t ht => (contains_iff _ _).mp (List.all_eq_true.mp hm t ht)
        have e : (runCase hash update (.panic n (some m))).eval (init fs) = ((init fs).start false n).pass false n := by
          simp only [runCase, hm, if_true, eval_say, Prog.eval]
        rw [e]
        refine ⟨?_, fun h => by simp [init, St.start, St.pass] at h⟩
        simp only [CaseOk, init, St.start, St.pass, Bool.false_eq_true, false_iff, Classical.not_not]
        exact ⟨m, rfl, hm'⟩
      · have e : (runCase hash update (.panic n (some m))).eval (init fs) = (((init fs).start false n).diag true).fail false n := by
          simp only [runCase, hm, Bool.false_eq_true, if_false, eval_say, Prog.eval]
        rw [e]
        refine ⟨?_, fun _ => rfl⟩
        simp only [fail_failed, true_iff, CaseOk]
        rintro ⟨m', h1, h2⟩
        cases h1
        exact hm (List.all_eq_true.mpr fun t ht => (contains_iff _ _).mpr (h2 t ht))
  | exampleFn n x =>
    cases x with
    | none => exact ⟨by simp [runCase, eval_say, Prog.eval, CaseOk, St.fail], fun _ => rfl⟩
    | some x =>
      obtain ⟨h1, h2⟩ := ex x (hd x rfl)
      refine ⟨?_, h2⟩
      simp only [runCase, CaseOk, Option.some.injEq, exists_eq_left']
      exact h1
  | file x => exact ex x (hd x rfl)

/-- C76: the verdict. If no system call fails and the examples have distinct names without dots, then whatever the order in
which the cases move, the runner succeeds exactly if every case passes. -/
theorem verdict_right_partial (hash : B → B) (update : Bool) {cases : List (Case B)} (fs : File → Option B)
    (sched : List (Nat × Bool)) (hn : (exampleNames cases).Nodup) (hd : ∀ n ∈ exampleNames cases, '.' ∉ n) (hf : NoFailure sched)
    (he : Ended (runAll hash update cases fs sched)) :
    exitCode (runAll hash update cases fs sched).2 = 0 ↔ ∀ c ∈ cases, CaseOk hash update fs c := by
  obtain ⟨w, hs⟩ := runAll_sim hash update fs sched hn hd
  have hw : ∀ i c, cases[i]? = some c → (w i).2 = (runCase hash update c).eval (init fs) := fun i c hc =>
    sim_end hs (noFailure_flags hf) he i _ (by rw [List.getElem?_map, hc]; rfl)
  have halone : ∀ i c, cases[i]? = some c → ((w i).2.failed = true ↔ ¬ CaseOk hash update fs c) ∧ Sound (w i).2 := by
    intro i c hc
    rw [hw i c hc]
    exact case_alone hash update fs c fun x hx => dotless_at hd hc hx
  have hfail : (runAll hash update cases fs sched).2.failed = true ↔ ∃ c ∈ cases, ¬ CaseOk hash update fs c := by
    rw [hs.failed]
    simp only [init, Bool.false_eq_true, false_or, List.length_map]
    constructor
    · rintro ⟨i, hi, h⟩
      exact ⟨cases[i], List.getElem_mem hi, (halone i _ (List.getElem?_eq_getElem hi)).1.mp h⟩
    · rintro ⟨c, hc, h⟩
      obtain ⟨i, hi⟩ := List.mem_iff_getElem?.mp hc
      obtain ⟨hlt, -⟩ := List.getElem?_eq_some_iff.mp hi
      exact ⟨i, hlt, (halone i c hi).1.mpr h⟩
  have hsound : Sound (runAll hash update cases fs sched).2 := by
    intro hdg
    rw [hs.diags] at hdg
    simp only [init, List.not_mem_nil, false_or, List.length_map] at hdg
    obtain ⟨i, hi, h⟩ := hdg
    rw [hs.failed]
    exact Or.inr ⟨i, by simpa using hi, (halone i _ (List.getElem?_eq_getElem hi)).2 h⟩
  have hcode : exitCode (runAll hash update cases fs sched).2 = 0 ↔ (runAll hash update cases fs sched).2.failed = false := by
    generalize (runAll hash update cases fs sched).2 = s at hsound
    unfold exitCode verdict
    by_cases hx : s.diags.any id = true
    · have : true ∈ s.diags := by
        obtain ⟨b, hb, hb'⟩ := List.any_eq_true.mp hx
        simp only [id] at hb'
        rw [← hb']; exact hb
      simp [hx, hsound this]
    · cases hfl : s.failed <;> simp [hx]
  rw [hcode]
  cases hx : (runAll hash update cases fs sched).2.failed
  · rw [hx] at hfail
    simp only [Bool.false_eq_true, false_iff, not_exists, not_and, Classical.not_not] at hfail
    simpa using hfail
  · obtain ⟨c, hc, h⟩ := hfail.mp hx
    simp only [Bool.true_eq_false, false_iff]
    exact fun hall => h (hall c hc)

end Tinymist.Testing
