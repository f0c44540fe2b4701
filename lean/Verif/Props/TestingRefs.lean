import Verif.Props.Testing
/-! C76, C77, continued: references, crashes, duplicates, the log, and watching. -/
namespace Tinymist.Testing
variable {B : Type} [DecidableEq B]

/-! What is left behind -/

theorem ref_ne_tmp (k : Kind) (e : Name) : refFile k e ≠ tmpFile k e := by
  intro h; have := congrArg File.name h; cases k <;> simp [refFile, tmpFile, ext] at this
theorem ref_ne_hash (k : Kind) (e : Name) : refFile k e ≠ hashFile k e := by
  intro h; have := congrArg File.name h; cases k <;> simp [refFile, hashFile, ext] at this
theorem tmp_ne_hash (k : Kind) (e : Name) : tmpFile k e ≠ hashFile k e := by
  intro h; have := congrArg File.name h; cases k <;> simp [tmpFile, hashFile, ext] at this

theorem cleared_fs (k : Kind) (e : Name) (s : St B) (f : File) :
    (cleared k e s).fs f = if f = tmpFile k e then none else s.fs f := by
  unfold cleared
  split
  · rfl
  · rename_i h
    split
    · rename_i hf; rw [hf]; simpa using h
    · rfl

theorem updated_leaves (hash : B → B) (update : Bool) (k : Kind) {e : Name} (d : B) (s : St B) (he : '.' ∉ e) :
    Leaves hash update e k d s.fs (updated hash update k e d s).fs := by
  have h1 := ref_ne_tmp k e
  have h2 := ref_ne_hash k e
  have h3 := tmp_ne_hash k e
  unfold Leaves
  rw [← ref_eq he, ← hash_eq he, ← tmp_eq he]
  refine ⟨?_, ?_, ?_⟩
  · intro h
    simp [updated, h, cleared_fs, h1, h3.symm]
  · intro h
    have hne : s.fs (hashFile k e) ≠ some (hash d) := by
      rcases h with h | h
      · rw [h]; simp
      · exact h.2
    have hor : s.fs (hashFile k e) = none ∨ update = true := by
      rcases h with h | h
      · exact Or.inl h
      · exact Or.inr h.1
    simp [updated, hne, hor, replaced, St.write, cleared_fs, h1.symm, h2, h3]
  · intro h4 h5 h6
    simp [updated, h4, h5, h6, St.write, h1, h3.symm]

theorem htmlDone_fs_paged (hash : B → B) (update : Bool) (x : Example B) (b : Bool) (s : St B) (f : File) (hf : f.kind = .paged) :
    (htmlDone hash update x b s).fs f = s.fs f := by
  unfold htmlDone
  split
  · cases b <;> rfl
  · simp
  · have := rendered_other hash update .html x.name ‹Option B› (built ‹Bool› false s) f (by rw [hf]; simp)
    rw [built_fs] at this
    simp only
    split
    · exact this
    · exact this

theorem exampleDone_fs (hash : B → B) (update : Bool) (x : Example B) (s : St B) {k : Kind} {d : B} (h : Outputs x k d) (f : File)
    (hf : f.kind = k) : ∃ s' : St B, (∀ g, g.kind = k → s'.fs g = s.fs g) ∧
      (exampleDone hash update x s).fs f = (updated hash update k x.name d s').fs f := by
  cases k with
  | paged =>
    have h : x.paged = some (some d) := h
    refine ⟨built x.warns false s, fun _ _ => by rw [built_fs], ?_⟩
    unfold exampleDone
    rw [h]
    exact htmlDone_fs_paged hash update x _ _ f hf
  | html =>
    obtain ⟨hp, w, hh⟩ := h
    obtain ⟨out, hp⟩ := Option.isSome_iff_exists.mp hp
    refine ⟨built w false (rendered hash update .paged x.name out (built x.warns false s)), ?_, ?_⟩
    · intro g hg
      rw [built_fs, rendered_other _ _ _ _ _ _ _ (by rw [hg]; simp), built_fs]
    · unfold exampleDone
      rw [hp]
      simp only [htmlDone, hh]
      split <;> rfl

/-- Without an output nothing is touched. -/
theorem exampleDone_none (hash : B → B) (update : Bool) (x : Example B) (s : St B) {k : Kind} (h : ∀ d, ¬ Outputs x k d) (f : File)
    (hf : f.kind = k) : (exampleDone hash update x s).fs f = s.fs f := by
  unfold exampleDone
  cases hp : x.paged with
  | none => simp
  | some out =>
    simp only
    cases k with
    | paged =>
      rw [htmlDone_fs_paged _ _ _ _ _ _ hf]
      cases out with
      | none => simp [rendered]
      | some d => exact absurd hp (h d)
    | html =>
      have h1 : (rendered hash update .paged x.name out (built x.warns false s)).fs f = s.fs f := by
        rw [rendered_other _ _ _ _ _ _ _ (by rw [hf]; simp), built_fs]
      rw [← h1]
      generalize rendered hash update .paged x.name out (built x.warns false s) = t
      unfold htmlDone
      split
      · split <;> rfl
      · simp
      · rename_i w o hh
        cases o with
        | none => simp [rendered]
        | some d => exact absurd ⟨by rw [hp]; rfl, w, hh⟩ (h d)

theorem updated_congr (hash : B → B) (update : Bool) (k : Kind) (e : Name) (d : B) {s s' : St B} (h : ∀ g, g.kind = k → s.fs g = s'.fs g)
    (f : File) (hf : f.kind = k) : (updated hash update k e d s).fs f = (updated hash update k e d s').fs f := by
  have hh := h (hashFile k e) rfl
  have h0 := h f hf
  unfold updated
  rw [hh]
  split
  · simp only [cleared_fs, h0]
  · split
    · simp only [replaced, St.write, cleared_fs, h0]
    · simp only [differs_fs, fail_fs, St.write, h0]

/-- The example that a case renders. -/
theorem runCase_example (hash : B → B) (update : Bool) {c : Case B} {x : Example B} (h : c.example? = some x) :
    runCase hash update c = runExample hash update x := by
  cases c with
  | test => cases h
  | panic => cases h
  | exampleFn n y => cases y with
    | none => cases h
    | some y => cases h; rfl
  | file y => cases h; rfl

/-- C77: what a run leaves behind. If no system call fails and the examples have distinct names without dots, then for every
output: if it matches, reference and hash stay; if there is no reference or references are updated, it becomes the
reference; else the reference stays and the output is put beside it. All files that are none of these stay as they are. -/
theorem references_after_partial (hash : B → B) (update : Bool) {cases : List (Case B)} (fs : File → Option B)
    (sched : List (Nat × Bool)) (hn : (exampleNames cases).Nodup) (hd : ∀ n ∈ exampleNames cases, '.' ∉ n) (hf : NoFailure sched)
    (he : Ended (runAll hash update cases fs sched)) :
    (∀ c ∈ cases, ∀ x, c.example? = some x → ∀ k d, Outputs x k d →
      Leaves hash update x.name k d fs (runAll hash update cases fs sched).2.fs) ∧
    ∀ f : File, (∀ c ∈ cases, ∀ x, c.example? = some x → ∀ k d, Outputs x k d → f ∉ [imageOf k x.name, hashOf k x.name, otherOf k x.name]) →
      (runAll hash update cases fs sched).2.fs f = fs f := by
  obtain ⟨w, hs⟩ := runAll_sim hash update fs sched hn hd
  constructor
  · intro c hc x hx k d ho
    obtain ⟨i, hi⟩ := List.mem_iff_getElem?.mp hc
    obtain ⟨hlt, -⟩ := List.getElem?_eq_some_iff.mp hi
    have hdl := dotless_at hd hi hx
    have hw := sim_end hs (noFailure_flags hf) he i (runCase hash update c) (by rw [List.getElem?_map, hi]; rfl)
    rw [runCase_example hash update hx, eval_example _ _ _ _ (by simp [init])] at hw
    have hfs : ∀ f, Own x.name f → f.kind = k → (runAll hash update cases fs sched).2.fs f = (updated hash update k x.name d (init fs)).fs f := by
      intro f hf' hk
      have h1 := (hs.agree i (by simpa using hlt)).1 f ⟨c, hi, x, hx, hf'⟩
      rw [h1, hw]
      obtain ⟨s', h2, h3⟩ := exampleDone_fs hash update x { (init fs).start true x.name with names := x.name :: (init fs).names } ho f hk
      rw [h3]
      exact updated_congr hash update k x.name d (s' := init fs) h2 f hk
    have hl := updated_leaves hash update k d (init fs) hdl
    unfold Leaves at hl ⊢
    rw [← ref_eq hdl, ← hash_eq hdl, ← tmp_eq hdl] at hl ⊢
    rw [hfs _ ⟨k, Or.inl rfl⟩ rfl, hfs _ ⟨k, Or.inr (Or.inl rfl)⟩ rfl, hfs _ ⟨k, Or.inr (Or.inr rfl)⟩ rfl]
    exact hl
  · intro f hfo
    by_cases hown : ∃ i, i < (cases.map (runCase hash update)).length ∧ ownAt cases i f
    · obtain ⟨i, hlt, c, hi, x, hx, k, hk⟩ := hown
      have hdl := dotless_at hd hi hx
      have hkind : f.kind = k := by rcases hk with rfl | rfl | rfl <;> rfl
      have hno : ∀ d, ¬ Outputs x k d := by
        intro d ho
        refine hfo c (List.mem_of_getElem? hi) x hx k d ho ?_
        rw [← ref_eq hdl, ← hash_eq hdl, ← tmp_eq hdl]
        simp only [List.mem_cons, List.not_mem_nil, or_false]
        rcases hk with h | h | h
        · exact Or.inl h
        · exact Or.inr (Or.inr h)
        · exact Or.inr (Or.inl h)
      have hw := sim_end hs (noFailure_flags hf) he i (runCase hash update c) (by rw [List.getElem?_map, hi]; rfl)
      rw [runCase_example hash update hx, eval_example _ _ _ _ (by simp [init])] at hw
      rw [(hs.agree i hlt).1 f ⟨c, hi, x, hx, k, hk⟩, hw]
      exact exampleDone_none hash update x _ hno f hkind
    · refine hs.others f fun i hi hx => hown ⟨i, hi, hx⟩

/-- C77: what was accepted is accepted again. After a run that succeeds, a run on the same outputs succeeds, without updating
references, and changes no file. -/
theorem accepted_again_partial (hash : B → B) (update : Bool) {cases : List (Case B)} (fs : File → Option B)
    (sched sched' : List (Nat × Bool)) (hn : (exampleNames cases).Nodup) (hd : ∀ n ∈ exampleNames cases, '.' ∉ n)
    (hf : NoFailure sched) (hf' : NoFailure sched') (he : Ended (runAll hash update cases fs sched))
    (hok : exitCode (runAll hash update cases fs sched).2 = 0)
    (he' : Ended (runAll hash false cases (runAll hash update cases fs sched).2.fs sched')) :
    exitCode (runAll hash false cases (runAll hash update cases fs sched).2.fs sched').2 = 0 ∧
    (runAll hash false cases (runAll hash update cases fs sched).2.fs sched').2.fs = (runAll hash update cases fs sched).2.fs := by
  have hall := (verdict_right_partial hash update fs sched hn hd hf he).mp hok
  have hl := (references_after_partial hash update fs sched hn hd hf he).1
  obtain ⟨hl', hrest⟩ := references_after_partial hash false (runAll hash update cases fs sched).2.fs sched' hn hd hf' he'
  -- after the first run the hash is that of the output, and nothing lies beside it
  have hnow : ∀ c ∈ cases, ∀ x, c.example? = some x → ∀ k d, Outputs x k d → OutputOk hash update fs x.name k d →
      (runAll hash update cases fs sched).2.fs (hashOf k x.name) = some (hash d) ∧
      (runAll hash update cases fs sched).2.fs (otherOf k x.name) = none := by
    intro c hc x hx k d ho hok
    obtain ⟨a1, a2, -⟩ := hl c hc x hx k d ho
    by_cases heq : fs (hashOf k x.name) = some (hash d)
    · obtain ⟨-, b, b'⟩ := a1 heq
      exact ⟨b.trans heq, b'⟩
    · have : fs (hashOf k x.name) = none ∨ update = true ∧ fs (hashOf k x.name) ≠ some (hash d) := by
        rcases hok with h | h | h
        · exact Or.inr ⟨h, heq⟩
        · exact Or.inl h
        · exact absurd h heq
      exact (a2 this).2
  have hex : ∀ c ∈ cases, ∀ x, c.example? = some x → ExampleOk hash update fs x := by
    intro c hc x hx
    have := hall c hc
    cases c with
    | test => cases hx
    | panic => cases hx
    | exampleFn n y =>
      obtain ⟨y', h1, h2⟩ := this
      simp only [Case.example?] at hx
      rw [hx] at h1; cases h1; exact h2
    | file y => cases hx; exact this
  have hout : ∀ c ∈ cases, ∀ x, c.example? = some x → ∀ k d, Outputs x k d → OutputOk hash update fs x.name k d := by
    intro c hc x hx k d ho
    obtain ⟨⟨d', h1, h2⟩, h3⟩ := hex c hc x hx
    cases k with
    | paged =>
      have ho : x.paged = some (some d) := ho
      rw [h1] at ho; cases ho; exact h2
    | html =>
      obtain ⟨-, w, hh⟩ := ho
      obtain ⟨d'', h4, h5⟩ := h3 w _ hh
      cases h4; exact h5
  constructor
  · refine (verdict_right_partial hash false _ sched' hn hd hf' he').mpr fun c hc => ?_
    have exok : ∀ x, c.example? = some x → ExampleOk hash false (runAll hash update cases fs sched).2.fs x := by
      intro x hx
      obtain ⟨⟨d, h1, h2⟩, h3⟩ := hex c hc x hx
      refine ⟨⟨d, h1, Or.inr (Or.inr (hnow c hc x hx .paged d h1 h2).1)⟩, fun w out hh => ?_⟩
      obtain ⟨d', rfl, h5⟩ := h3 w out hh
      exact ⟨d', rfl, Or.inr (Or.inr (hnow c hc x hx .html d' ⟨by rw [h1]; rfl, w, hh⟩ h5).1)⟩
    have := hall c hc
    cases c with
    | test n err => exact this
    | panic n err => exact this
    | exampleFn n y =>
      obtain ⟨y', rfl, h2⟩ := this
      exact ⟨y', rfl, exok y' rfl⟩
    | file y => exact exok y rfl
  · funext f
    by_cases hsome : ∃ c ∈ cases, ∃ x, c.example? = some x ∧ ∃ k d, Outputs x k d ∧ f ∈ [imageOf k x.name, hashOf k x.name, otherOf k x.name]
    case neg =>
      refine hrest f fun c hc x hx k d ho hfm => hsome ⟨c, hc, x, hx, k, d, ho, hfm⟩
    obtain ⟨c, hc, x, hx, k, d, ho, hfm⟩ := hsome
    obtain ⟨e1, e2⟩ := hnow c hc x hx k d ho (hout c hc x hx k d ho)
    obtain ⟨a1, -, -⟩ := hl' c hc x hx k d ho
    obtain ⟨b1, b2, b3⟩ := a1 e1
    simp only [List.mem_cons, List.not_mem_nil, or_false] at hfm
    rcases hfm with rfl | rfl | rfl
    · exact b1
    · exact b2
    · rw [b3, e2]

end Tinymist.Testing
