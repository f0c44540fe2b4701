import Verif.Props.TestingSafe

/-!
# C76: what success means when system calls fail
-/

namespace Tinymist.Testing
variable {B : Type} [DecidableEq B]

/-- Whatever calls fail, a case that runs alone from `s` ends in `Q`. -/
def Always (Q : St B → Prop) : Prog B → St B → Prop
  | .done, s => Q s
  | .act u n, s => ∀ b, Always Q (n s b) (u s b)

theorem always_solo {Q : St B → Prop} (l : List Bool) : ∀ c : Prog B × St B, Always Q c.1 c.2 →
    (Prog.solo l c).1 = .done → Q (Prog.solo l c).2 := by
  induction l with
  | nil =>
    rintro ⟨p, s⟩ h hd
    change p = .done at hd
    subst hd
    exact h
  | cons b l ih =>
    rintro ⟨p, s⟩ h hd
    have e : Prog.solo (b :: l) (p, s) = Prog.solo l (Prog.one (p, s) b) := rfl
    rw [e] at hd ⊢
    refine ih _ ?_ hd
    cases p with
    | done => exact h
    | act u n => exact h b

theorem always_mono {Q R : St B → Prop} (hQ : ∀ s, Q s → R s) {p : Prog B} : ∀ {s : St B}, Always Q p s → Always R p s := by
  induction p with
  | done => intro s h; exact hQ s h
  | act u n ih => intro s h b; exact ih s b (h b)

theorem always_failed {O : File → Prop} {en : Option Name} {p : Prog B} (hp : Local O en p) : ∀ {s : St B}, s.failed = true →
    Always (fun s => s.failed = true) p s := by
  induction p with
  | done => intro s h; exact h
  | act u n ih =>
    intro s h b
    refine ih s b (hp.2.2 s b) ?_
    obtain ⟨x, hx⟩ := (hp.1 b).failed
    rw [hx, h]; rfl

variable {hash : B → B} {Q : St B → Prop}

/-- The output is recorded. -/
def Settled (hash : B → B) (e : Name) (k : Kind) (d : B) (s : St B) : Prop :=
  s.fs (hashFile k e) = some (hash d) ∧ s.fs (tmpFile k e) = none

/-- Nothing of the other kind changed. -/
def SameOther (k : Kind) (s s' : St B) : Prop := ∀ f : File, f.kind ≠ k → s'.fs f = s.fs f

theorem write_same {k : Kind} {s : St B} {f : File} (hf : f.kind = k) (b : Option B) : SameOther k s (s.write f b) := by
  intro g hg
  simp only [St.write]
  rw [if_neg]
  rintro rfl
  exact hg hf

theorem SameOther.trans {k : Kind} {s t u : St B} (h1 : SameOther k s t) (h2 : SameOther k t u) : SameOther k s u :=
  fun f hf => (h2 f hf).trans (h1 f hf)

theorem always_writeRef {e : Name} {k : Kind} {d : B} {cont : Bool → Prog B} {s0 s : St B} (h0 : SameOther k s0 s)
    (ht : s.fs (tmpFile k e) = none) (hbad : ∀ s, Always Q (cont true) s)
    (hgood : ∀ s, SameOther k s0 s → Settled hash e k d s → Always Q (cont false) s) :
    Always Q (writeRef hash e k d cont) s := by
  intro b
  simp only
  split
  · exact hbad _
  · intro b
    simp only
    split
    · exact hbad _
    · rename_i hb
      intro b'
      simp only [hb, Bool.false_eq_true, if_false]
      cases b'
      · refine hgood _ (h0.trans ((write_same (f := refFile k e) rfl _).trans (write_same (f := hashFile k e) rfl _))) ⟨by simp [St.write], ?_⟩
        simp only [Bool.false_eq_true, if_false, St.write, tmp_ne_hash, (ref_ne_tmp k e).symm]
        exact ht
      · exact hbad _

theorem always_settle {e : Name} {k : Kind} {d : B} {equal : Bool} {cont : Bool → Prog B} {s : St B}
    (he : equal = true → s.fs (hashFile k e) = some (hash d)) (hbad : ∀ s, Always Q (cont true) s)
    (hgood : ∀ s', SameOther k s s' → Settled hash e k d s' → Always Q (cont false) s') :
    Always Q (settle hash e k d equal cont) s := by
  intro b
  simp only
  split
  · exact hbad _
  · split
    · intro b'
      simp only
      split
      · exact hbad _
      · rename_i hb'
        have hb : b' = false := by
          cases b'
          · rfl
          · simp at hb'
        subst hb
        simp only [Bool.false_eq_true, if_false]
        split
        · rename_i heq
          refine hgood _ (write_same (f := tmpFile k e) rfl _) ⟨?_, by simp [St.write]⟩
          simp only [St.write, (tmp_ne_hash k e).symm, if_false]
          exact he heq
        · exact always_writeRef (write_same (f := tmpFile k e) rfl _) (by simp [St.write]) hbad hgood
    · rename_i hn
      have hn : s.fs (tmpFile k e) = none := by
        cases h : s.fs (tmpFile k e) with
        | none => rfl
        | some x => rw [h] at hn; simp at hn
      split
      · rename_i heq
        exact hgood _ (fun _ _ => rfl) ⟨he heq, hn⟩
      · exact always_writeRef (fun _ _ => rfl) hn hbad hgood

theorem always_update {update : Bool} {e : Name} {k : Kind} {d : B} {cont : Bool → Prog B} {s : St B}
    (hbad : ∀ s, Always Q (cont true) s) (hfailed : ∀ s, s.failed = true → Always Q (cont false) s)
    (hgood : ∀ s', SameOther k s s' → Settled hash e k d s' → Always Q (cont false) s') :
    Always Q (updateExample hash update e k d cont) s := by
  intro b
  simp only
  split
  · exact hbad _
  · split
    · exact always_settle (by simp) hbad hgood
    · intro b'
      simp only
      split
      · exact hbad _
      · rename_i h hh
        split
        · exact hbad _
        · split
          · rename_i he
            exact always_settle (fun _ => by rw [hh, he]) hbad hgood
          · split
            · exact always_settle (by simp) hbad hgood
            · intro b''
              simp only
              split
              · exact hbad _
              · intro _ _
                exact hfailed _ rfl

theorem always_check {O : File → Prop} {en : Option Name} {e : Name} {cont : Bool → Prog B} (hl : Local O en (cont true))
    (hQ : ∀ s, s.failed = true → Q s) (s : St B) : Always Q (checkResult e cont true) s :=
  fun _ => always_mono hQ (always_failed hl rfl)

/-- How an example ends. -/
def Outcome (hash : B → B) (x : Example B) (s : St B) : Prop :=
  s.failed = true ∨ (∃ d, x.paged = some (some d) ∧ Settled hash x.name .paged d s) ∧
    ∀ w out, x.html = some (w, out) → ∃ d, out = some (some d) ∧ Settled hash x.name .html d s

theorem always_finish_bad {x : Example B} (s : St B) : Always (Outcome hash x) (finish x.name true) s := fun _ => .inl rfl

theorem always_build {w b : Bool} {p : Prog B} (h : ∀ s' : St B, Always Q p s') (s : St B) : Always Q (build w b p) s := by
  cases w <;> cases b
  · exact h s
  · exact fun _ => h _
  · exact fun _ => h _
  · exact fun _ _ => h _

theorem always_build_fs {w : Bool} {p : Prog B} {s : St B} (h : ∀ s' : St B, s'.fs = s.fs → Always Q p s') : Always Q (build w false p) s := by
  cases w
  · exact h s rfl
  · exact fun _ => h _ rfl

theorem settled_other {e : Name} {d : B} {s s' : St B} (h : SameOther .html s s') (hs : Settled hash e .paged d s) :
    Settled hash e .paged d s' :=
  ⟨(h _ (by simp [hashFile])).trans hs.1, (h _ (by simp [tmpFile])).trans hs.2⟩

theorem always_html (update : Bool) {x : Example B} {d : B} (hp : x.paged = some (some d)) {s : St B}
    (hs : Settled hash x.name .paged d s) : Always (Outcome hash x) (runHtml hash update x false) s := by
  unfold runHtml
  split
  · rename_i hn
    intro _
    exact .inr ⟨⟨d, hp, hs⟩, by simp [hn]⟩
  · exact always_build always_finish_bad s
  · rename_i w out hh
    refine always_build_fs fun s1 h1 => ?_
    have hs1 : Settled hash x.name .paged d s1 := by unfold Settled; rw [h1]; exact hs
    unfold render
    split
    · rename_i d'
      refine always_update (fun s => always_check (O := fun _ => True) (en := none) (local_finish _ _) (fun s h => .inl h) s) ?_ ?_
      · intro s2 h2
        exact fun _ => .inl h2
      · intro s2 h2 h3 _
        refine .inr ⟨⟨d, hp, settled_other h2 hs1⟩, ?_⟩
        rintro w' out' he
        rw [hh] at he
        cases he
        exact ⟨d', rfl, h3⟩
    · exact fun _ _ _ => .inl rfl

theorem always_example (update : Bool) (x : Example B) (s : St B) (hn : x.name ∉ s.names) :
    Always (Outcome hash x) (runExample hash update x) s := by
  intro _ _
  have hn' : x.name ∉ (St.start true x.name s).names := hn
  simp only [if_neg hn']
  split
  · exact always_build always_finish_bad _
  · rename_i out hp
    refine always_build (fun s1 => ?_) _
    have hl := local_runHtml hash update x
    unfold render
    split
    · rename_i d
      refine always_update (fun s => always_check (hl true) (fun s h => .inl h) s) ?_ ?_
      · intro s2 h2
        exact always_mono (fun s h => .inl h) (always_failed (hl false) h2)
      · intro s2 _ h3
        exact always_html update hp h3
    · exact always_check (hl true) (fun s h => .inl h) _

/-- A case with no example. -/
theorem always_plain (update : Bool) (fs : File → Option B) (c : Case B) (hc : c.example? = none) (s : St B) :
    Always (fun s => s.failed = true ∨ CaseOk hash update fs c) (runCase hash update c) s := by
  cases c with
  | test n err =>
    cases err with
    | none => exact fun _ _ => .inr rfl
    | some m => exact fun _ _ _ => .inl rfl
  | panic n err =>
    cases err with
    | none => exact fun _ _ => .inl rfl
    | some m =>
      intro _
      by_cases hm : m.all (contains panicWord) = true
      · simp only [hm, if_true]
        exact fun _ => .inr ⟨m, rfl, fun t ht => (contains_iff _ _).mp (List.all_eq_true.mp hm t ht)⟩
      · simp only [hm]
        exact fun _ _ => .inl rfl
  | exampleFn n x =>
    cases x with
    | none => exact fun _ => .inl rfl
    | some x => cases hc
  | file x => cases hc

/-- **C76.** Success can be relied on even if system calls fail: when all cases have ended, whatever the order in which they
moved and whichever calls failed, the runner succeeds only if the tests pass, the examples compile and render, and the
hash recorded for each output is that of the output. -/
theorem success_means_recorded_partial (hash : B → B) (update : Bool) {cases : List (Case B)} (fs : File → Option B)
    (sched : List (Nat × Bool)) (hn : (exampleNames cases).Nodup) (hd : ∀ n ∈ exampleNames cases, '.' ∉ n)
    (he : Ended (runAll hash update cases fs sched)) (h0 : exitCode (runAll hash update cases fs sched).2 = 0) :
    ∀ c ∈ cases, (c.example? = none → CaseOk hash update fs c) ∧
      ∀ x, c.example? = some x → Recorded hash (runAll hash update cases fs sched).2.fs x := by
  obtain ⟨w, hs⟩ := runAll_sim hash update fs sched hn hd
  have hnf : (runAll hash update cases fs sched).2.failed = false := by
    generalize (runAll hash update cases fs sched).2 = s at h0
    have h1 : verdict s = some true := by
      unfold exitCode at h0
      by_cases h : verdict s = some true
      · exact h
      · simp [h] at h0
    unfold verdict at h1
    by_cases hx : s.diags.any id = true
    · simp [hx] at h1
    · simpa [hx] using h1
  intro c hc
  obtain ⟨i, hi⟩ := List.mem_iff_getElem?.mp hc
  have hip : (cases.map (runCase hash update))[i]? = some (runCase hash update c) := by rw [List.getElem?_map, hi]; rfl
  obtain ⟨hlt, -⟩ := List.getElem?_eq_some_iff.mp hip
  obtain ⟨⟨l, h1, -⟩, -⟩ := hs.start i _ hip
  have hdone : (w i).1 = .done := he _ (List.mem_of_getElem? (hs.prog i hlt))
  have hwf : (w i).2.failed = false := by
    cases hb : (w i).2.failed
    · rfl
    · rw [hs.failed.mpr (.inr ⟨i, hlt, hb⟩)] at hnf
      cases hnf
  rw [h1] at hdone
  constructor
  · intro hx
    have := always_solo l _ (always_plain (hash := hash) update fs c hx (init fs)) hdone
    rw [← h1, hwf] at this
    exact this.resolve_left (by simp)
  · intro x hx
    have hdot := dotless_at hd hi hx
    have ha := always_solo (Q := Outcome hash x) l (runCase hash update c, init fs) (by
      rw [runCase_example hash update hx]
      exact always_example update x (init fs) (by simp [init])) hdone
    rw [← h1] at ha
    have hown : ∀ f, Own x.name f → (runAll hash update cases fs sched).2.fs f = (w i).2.fs f := by
      intro f hf
      exact (hs.agree i hlt).1 f ⟨c, hi, x, hx, hf⟩
    have hset : ∀ k d, Settled hash x.name k d (w i).2 →
        (runAll hash update cases fs sched).2.fs (hashOf k x.name) = some (hash d) ∧
        (runAll hash update cases fs sched).2.fs (otherOf k x.name) = none := by
      intro k d h
      rw [← hash_eq hdot, ← tmp_eq hdot, hown _ ⟨k, .inr (.inr rfl)⟩, hown _ ⟨k, .inr (.inl rfl)⟩]
      exact h
    rcases ha with ha | ⟨⟨d, h2, h3⟩, h4⟩
    · rw [hwf] at ha; cases ha
    · refine ⟨⟨d, h2, hset _ _ h3⟩, fun w out ho => ?_⟩
      obtain ⟨d', h5, h6⟩ := h4 w out ho
      exact ⟨d', h5, hset _ _ h6⟩

/-- A run in which creating the directory of the references fails ends, and does not succeed. -/
example : let r := (runAll (fun n : Nat => n + 1) false [.file ⟨['a'], false, some (some 3), none⟩] (fun _ => none)
      [(0, false), (0, false), (0, false), (0, false), (0, true), (0, false), (0, false)]);
    r.1.all (fun p => match p with | .done => true | _ => false) = true ∧ exitCode r.2 = 1 := by
  decide +kernel

/-- One in which nothing fails succeeds. -/
example : let r := (runAll (fun n : Nat => n + 1) false [.file ⟨['a'], false, some (some 3), none⟩] (fun _ => none)
      [(0, false), (0, false), (0, false), (0, false), (0, false), (0, false), (0, false), (0, false)]);
    r.1.all (fun p => match p with | .done => true | _ => false) = true ∧ exitCode r.2 = 0 := by
  decide +kernel

/-- **C76, violated.** Examples whose names differ only after the last dot share their reference, whatever the names. -/
theorem dotted_names_share {a b c : Name} (ha : a ≠ []) (hb : '.' ∉ b) (hc : '.' ∉ c) (k : Kind) :
    refFile k (a ++ '.' :: b) = imageOf k a ∧ refFile k (a ++ '.' :: c) = imageOf k a ∧
      hashFile k (a ++ '.' :: b) = hashOf k a ∧ hashFile k (a ++ '.' :: c) = hashOf k a := by
  have key : ∀ b : Name, '.' ∉ b → stem (a ++ '.' :: b) = a := by
    intro b hb
    have e : (a ++ '.' :: b).reverse.dropWhile (· ≠ '.') = '.' :: a.reverse := by
      rw [List.reverse_append, List.reverse_cons, List.append_assoc]
      rw [List.dropWhile_append_of_pos]
      · simp
      · intro x hx
        simp only [ne_eq, decide_eq_true_eq]
        rintro rfl
        exact hb (List.mem_reverse.mp hx)
    unfold stem
    rw [e]
    simp [ha]
  simp only [refFile, hashFile, key b hb, key c hc, imageOf, hashOf]
  cases k <;> exact ⟨rfl, rfl, rfl, rfl⟩

end Tinymist.Testing
