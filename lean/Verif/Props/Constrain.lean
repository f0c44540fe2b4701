import Verif.Lemmas.Constrain

/-! # What is learned of types from their uses (C165) -/

namespace Tinymist.Constrain

open Types

/-- What a call tells is known. -/
def CallKnown (lib : Lib) (s : State) (c : SigTy × SigTy × List SigTy) : Prop :=
  ∀ p a, (p, a) ∈ c.1.matches c.2.1 c.2.2 → ∀ f, Tells lib a p f → Knows lib s f

/-- A state after learning just the facts `F`. -/
structure Result (lib : Lib) (F : Fact → Prop) (s s' : State) : Prop where
  dom : ∀ v, s.vars v = none → s'.vars v = none
  grow : ∀ v b, s.vars v = some b → ∃ b', s'.vars v = some b' ∧ b'.weak = b.weak ∧ (∀ t ∈ b.lbs, t ∈ b'.lbs) ∧ (∀ t ∈ b.ubs, t ∈ b'.ubs) ∧
    (∀ t ∈ b'.ubs, t ∈ b.ubs ∨ F (.atMost v t)) ∧ (∀ t ∈ b'.lbs, t ∈ b.lbs ∨ ∃ u, F (.atLeast v u) ∧ Keeps lib b.weak u t)
  told : ∀ f, F f → Knows lib s' f
  seen : ∀ c ∈ s.seen, c ∈ s'.seen
  fresh : ∀ c ∈ s'.seen, c ∈ s.seen ∨ CallKnown lib s' c

theorem Result.knows {lib : Lib} {F : Fact → Prop} {s s' : State} (h : Result lib F s s') {f : Fact} (hf : Knows lib s f) : Knows lib s' f := by
  cases f with
  | atMost v t =>
    obtain ⟨b, hb, ht⟩ := hf
    obtain ⟨b', h1, -, -, h2, -⟩ := h.grow v b hb
    exact ⟨b', h1, h2 t ht⟩
  | atLeast v t =>
    obtain ⟨b, hb, ht⟩ := hf
    obtain ⟨b', h1, hw, h2, -⟩ := h.grow v b hb
    refine ⟨b', h1, ?_⟩
    rcases ht with ht | ⟨w, n, e, hn⟩
    · exact .inl (h2 t ht)
    · exact .inr ⟨hw.trans w, n, e, h2 _ hn⟩

theorem Result.nil (lib : Lib) (s : State) {F : Fact → Prop} (hF : ∀ f, ¬ F f) : Result lib F s s :=
  ⟨fun _ h => h, fun v b h => ⟨b, h, rfl, fun _ h => h, fun _ h => h, fun _ h => .inl h, fun _ h => .inl h⟩, fun f h => absurd h (hF f),
    fun _ h => h, fun _ h => .inl h⟩

theorem Result.known {lib : Lib} {s : State} {F : Fact → Prop} (hF : ∀ f, F f → Knows lib s f) : Result lib F s s :=
  ⟨fun _ h => h, fun v b h => ⟨b, h, rfl, fun _ h => h, fun _ h => h, fun _ h => .inl h, fun _ h => .inl h⟩, hF,
    fun _ h => h, fun _ h => .inl h⟩

theorem Result.trans {lib : Lib} {F G H : Fact → Prop} {s s1 s2 : State} (h1 : Result lib F s s1) (h2 : Result lib G s1 s2)
    (hH : ∀ f, H f ↔ F f ∨ G f) : Result lib H s s2 := by
  refine ⟨fun v h => h2.dom v (h1.dom v h), ?_, ?_, fun c h => h2.seen c (h1.seen c h), ?_⟩
  · intro v b hb
    obtain ⟨b1, e1, w1, l1, u1, nu1, nl1⟩ := h1.grow v b hb
    obtain ⟨b2, e2, w2, l2, u2, nu2, nl2⟩ := h2.grow v b1 e1
    refine ⟨b2, e2, w2.trans w1, fun t h => l2 t (l1 t h), fun t h => u2 t (u1 t h), ?_, ?_⟩
    · intro t ht
      rcases nu2 t ht with h | h
      · rcases nu1 t h with h | h
        · exact .inl h
        · exact .inr ((hH _).mpr (.inl h))
      · exact .inr ((hH _).mpr (.inr h))
    · intro t ht
      rcases nl2 t ht with h | ⟨u, h, k⟩
      · rcases nl1 t h with h | ⟨u, h, k⟩
        · exact .inl h
        · exact .inr ⟨u, (hH _).mpr (.inl h), k⟩
      · exact .inr ⟨u, (hH _).mpr (.inr h), w1 ▸ k⟩
  · intro f hf
    rcases (hH f).mp hf with h | h
    · exact h2.knows (h1.told f h)
    · exact h2.told f h
  · intro c hc
    rcases h2.fresh c hc with h | h
    · rcases h1.fresh c h with h | h
      · exact .inl h
      · exact .inr fun p a hp f hf => h2.knows (h p a hp f hf)
    · exact .inr h

theorem mem_add {t u : Ty} {l : List Ty} : t ∈ add u l ↔ t ∈ l ∨ t = u := by
  unfold add
  split
  · rename_i h
    exact ⟨.inl, fun h' => h'.elim id fun e => e ▸ h⟩
  · simp

theorem set_same (s : State) (v : Nat) (b : Bounds) : (s.set v b).vars v = some b := by
  simp [State.set]

theorem set_other (s : State) {v w : Nat} (b : Bounds) (h : w ≠ v) : (s.set v b).vars w = s.vars w := by
  simp [State.set, h]

theorem upper_result {lib : Lib} {v : Nat} {b : Ty} {s s' : State} {F : Fact → Prop} (hF : ∀ f, F f ↔ f = .atMost v b)
    (h : addUpper v b s = some s') : Result lib F s s' := by
  unfold addUpper at h
  cases hv : s.vars v with
  | none => rw [hv] at h; cases h
  | some w =>
    rw [hv] at h
    simp only [Option.some.injEq] at h
    subst h
    refine ⟨?_, ?_, ?_, fun _ h => h, fun _ h => .inl h⟩
    · intro x hx
      rw [set_other _ _ (by rintro rfl; rw [hv] at hx; cases hx)]; exact hx
    · intro x c hc
      by_cases e : x = v
      · subst e
        rw [hv] at hc; cases hc
        refine ⟨_, set_same _ _ _, rfl, fun _ h => h, fun t ht => mem_add.mpr (.inl ht), ?_, fun _ h => .inl h⟩
        intro t ht
        rcases mem_add.mp ht with h | rfl
        · exact .inl h
        · exact .inr ((hF _).mpr rfl)
      · exact ⟨c, by rw [set_other _ _ e]; exact hc, rfl, fun _ h => h, fun _ h => h, fun _ h => .inl h, fun _ h => .inl h⟩
    · intro f hf
      rw [hF] at hf
      subst hf
      exact ⟨_, set_same _ _ _, mem_add.mpr (.inr rfl)⟩

theorem keeps_weaken (lib : Lib) (b : Ty) (w : Bool) : Keeps lib w b (weakenConstraint lib b w) := by
  unfold weakenConstraint Keeps
  cases w with
  | false => simp
  | true =>
    simp only [Bool.true_eq_false, if_false, true_and]
    split
    · rename_i n; exact .inl ⟨n, rfl, rfl⟩
    · rename_i t h; exact .inr ⟨.inr fun n e => h n e, rfl⟩

theorem lower_result {lib : Lib} {v : Nat} {b : Ty} {s s' : State} {F : Fact → Prop} (hF : ∀ f, F f ↔ f = .atLeast v b)
    (h : addLower lib v b s = some s') : Result lib F s s' := by
  unfold addLower at h
  cases hv : s.vars v with
  | none => rw [hv] at h; cases h
  | some w =>
    rw [hv] at h
    simp only [Option.some.injEq] at h
    subst h
    refine ⟨?_, ?_, ?_, fun _ h => h, fun _ h => .inl h⟩
    · intro x hx
      rw [set_other _ _ (by rintro rfl; rw [hv] at hx; cases hx)]; exact hx
    · intro x c hc
      by_cases e : x = v
      · subst e
        rw [hv] at hc; cases hc
        refine ⟨_, set_same _ _ _, rfl, fun t ht => mem_add.mpr (.inl ht), fun _ h => h, fun _ h => .inl h, ?_⟩
        intro t ht
        rcases mem_add.mp ht with h | rfl
        · exact .inl h
        · exact .inr ⟨b, (hF _).mpr rfl, keeps_weaken lib b _⟩
      · exact ⟨c, by rw [set_other _ _ e]; exact hc, rfl, fun _ h => h, fun _ h => h, fun _ h => .inl h, fun _ h => .inl h⟩
    · intro f hf
      rw [hF] at hf
      subst hf
      refine ⟨_, set_same _ _ _, ?_⟩
      simp only [mem_add]
      rcases keeps_weaken lib b w.weak with ⟨hw, n, e1, e2⟩ | ⟨-, e⟩
      · exact .inr ⟨hw, n, e1, .inr e2.symm⟩
      · exact .inl (.inr e.symm)

/-- What the calls that were gone through tell is known, but for those at least as deep as `m`. -/
def Settled (lib : Lib) (m : Nat) (s : State) : Prop :=
  ∀ sig args, (sig, args, []) ∈ s.seen → CallKnown lib s (sig, args, []) ∨ m ≤ callDeep lib sig args

theorem Settled.next {lib : Lib} {m : Nat} {s s' : State} {F : Fact → Prop} (h : Settled lib m s) (hr : Result lib F s s') : Settled lib m s' := by
  intro sig args hc
  rcases hr.fresh _ hc with hc | hc
  · rcases h sig args hc with h | h
    · exact .inl fun p a hp f hf => hr.knows (h p a hp f hf)
    · exact .inr h
  · exact .inl hc

theorem fold_result {lib : Lib} {m : Nat} {α : Type} {g : State → α → Option State} {T : α → Fact → Prop} (ps : List α)
    (hg : ∀ p ∈ ps, ∀ s s', Settled lib m s → g s p = some s' → Result lib (T p) s s') :
    ∀ s s', Settled lib m s → ps.foldlM g s = some s' → Result lib (fun f => ∃ p ∈ ps, T p f) s s' := by
  induction ps with
  | nil =>
    intro s s' _ h
    cases h
    exact .nil lib s (by simp)
  | cons p ps ih =>
    intro s s' hs h
    rw [List.foldlM_cons] at h
    obtain ⟨s1, h1, h2⟩ := Option.bind_eq_some_iff.mp h
    have r1 := hg p (by simp) s s1 hs h1
    have r2 := ih (fun q hq => hg q (by simp [hq])) s1 s' (hs.next r1) h2
    exact r1.trans r2 (by simp)

/-- **Main lemma.** A constraint adds what is told. -/
theorem go_result {lib : Lib} (fits : Fits lib) : ∀ (n : Nat) (l r : Ty) (m : Nat) (s s' : State), InOrder l → InOrder r →
    deep lib l + deep lib r ≤ m → Settled lib m s → go lib n l r s = some s' → Result lib (Tells lib l r) s s'
  | 0, l, r, m, s, s', _, _, _, _, h => by cases h
  | n + 1, l, r, m, s, s', hl, hr, hm, hs, h => by
    have hlead := fun f => (step_leads (f := f) fits hl hr)
    rw [go] at h
    cases hstep : step lib l r with
    | nothing =>
      rw [hstep] at h hlead
      cases h
      exact .nil lib s fun f hf => (hlead f).mpr hf
    | upper v b =>
      rw [hstep] at h hlead
      exact upper_result (fun f => (hlead f).symm) h
    | lower v b =>
      rw [hstep] at h hlead
      exact lower_result (fun f => (hlead f).symm) h
    | each ps =>
      rw [hstep] at h hlead
      have hp := step_each fits hl hr hstep
      have := fold_result (m := m) (T := fun p => Tells lib p.1 p.2) ps
        (fun p hpm s s' hs h => go_result fits n p.1 p.2 m s s' (hp p hpm).1 (hp p hpm).2.1 (by have := (hp p hpm).2.2.1; omega) hs h) s s' hs h
      have e : (fun f => ∃ p ∈ ps, Tells lib p.1 p.2 f) = Tells lib l r := funext fun f => propext (hlead f)
      rwa [e] at this
    | call sig args =>
      rw [hstep] at h hlead
      have e : (fun f => ∃ p ∈ sig.matches args [], Tells lib p.2 p.1 f) = Tells lib l r := funext fun f => propext (hlead f)
      obtain ⟨sh, b, ts, sh', b', ts', rfl, rfl, rfl, rfl⟩ := step_call hstep
      have hi1 : ∀ t ∈ (sigIn sh b ts).inputs, InOrder t ∧ deep lib t ≤ deepList lib (sigIn sh b ts).inputs :=
        fun t ht => ⟨inOrder_sub hl t (sigIn_inputs _ _ _ t ht), deep_mem t ht⟩
      have hi2 : ∀ t ∈ (sigIn sh' b' ts').inputs, InOrder t ∧ deep lib t ≤ deepList lib (sigIn sh' b' ts').inputs :=
        fun t ht => ⟨inOrder_sub hr t (sigIn_inputs _ _ _ t ht), deep_mem t ht⟩
      have hd1 : deepList lib (sigIn sh b ts).inputs + 1 ≤ deep lib (.node (.sig .func sh b) ts) := by
        rw [deep.eq_def (lib := lib) (.node _ ts)]
        simp only
        have := deepList_le (lib := lib) (ts := (sigIn sh b ts).inputs) (n := deepList lib ts) fun t ht => deep_mem t (sigIn_inputs _ _ _ t ht)
        omega
      have hd2 : deepList lib (sigIn sh' b' ts').inputs + 1 ≤ deep lib (.node (.sig .func sh' b') ts') := by
        rw [deep.eq_def (lib := lib) (.node _ ts')]
        simp only
        have := deepList_le (lib := lib) (ts := (sigIn sh' b' ts').inputs) (n := deepList lib ts') fun t ht => deep_mem t (sigIn_inputs _ _ _ t ht)
        omega
      have hcd : callDeep lib (sigIn sh b ts) (sigIn sh' b' ts') < m := by unfold callDeep; omega
      simp only at h
      split at h
      · rename_i hseen
        cases h
        rw [← e]
        rcases hs _ _ hseen with hk | hk
        · refine .known ?_
          rintro f ⟨⟨p, a⟩, hp, hf⟩
          exact hk p a hp f hf
        · omega
      · have hs1 : Settled lib (callDeep lib (sigIn sh b ts) (sigIn sh' b' ts'))
            { s with seen := (sigIn sh b ts, sigIn sh' b' ts', []) :: s.seen } := by
          intro sig args hc
          rcases List.mem_cons.mp hc with hc | hc
          · cases hc; exact .inr (Nat.le_refl _)
          · rcases hs sig args hc with h | h
            · exact .inl h
            · exact .inr (by omega)
        have := fold_result (m := callDeep lib (sigIn sh b ts) (sigIn sh' b' ts')) (T := fun p => Tells lib p.2 p.1)
          ((sigIn sh b ts).matches (sigIn sh' b' ts') [])
          (fun p hpm s s' hs h => by
            obtain ⟨h1, h2⟩ := matches_mem (p := p.1) (q := p.2) hpm
            have h2' : p.2 ∈ (sigIn sh' b' ts').inputs := h2.elim id (by rintro ⟨w, hw, -⟩; cases hw)
            exact go_result fits n p.2 p.1 _ s s' (hi2 _ h2').1 (hi1 _ h1).1
              (by unfold callDeep; have := (hi2 _ h2').2; have := (hi1 _ h1).2; omega) hs h)
          _ s' hs1 h
        refine ⟨this.dom, ?_, ?_, fun c hc => this.seen c (List.mem_cons_of_mem _ hc), ?_⟩
        · rw [← e]; exact this.grow
        · rw [← e]; exact this.told
        · intro c hc
          rcases this.fresh c hc with hc | hc
          · rcases List.mem_cons.mp hc with rfl | hc
            · exact .inr fun p a hp f hf => this.told f ⟨(p, a), hp, hf⟩
            · exact .inl hc
          · exact .inr hc

/-! ## No failure -/

/-- The variables are known. -/
def Registered (V : Nat → Prop) (s : State) : Prop := ∀ v, V v → (s.vars v).isSome = true

theorem registered_set {V : Nat → Prop} {s : State} (h : Registered V s) (v : Nat) (b : Bounds) : Registered V (s.set v b) := by
  intro w hw
  by_cases e : w = v
  · subst e; rw [set_same]; rfl
  · rw [set_other _ _ e]; exact h w hw

theorem part_occurs {lib : Lib} (fits : Fits lib) {t u : Ty} (h : Part lib t u) {v : Nat} (ho : Types.Spec.Occurs v t) : Types.Spec.Occurs v u := by
  rcases h with rfl | ⟨g, ts, rfl, ht⟩ | ⟨k, d, x, rfl, hk, hx⟩
  · exact ho
  · exact .node g ts t ht ho
  · exact absurd ho (fits.closed k d hk x t v hx)

theorem fold_some {V : Nat → Prop} {α : Type} {g : State → α → Option State} (ps : List α)
    (hg : ∀ p ∈ ps, ∀ s, Registered V s → ∃ s', g s p = some s' ∧ Registered V s') :
    ∀ s, Registered V s → ∃ s', ps.foldlM g s = some s' ∧ Registered V s' := by
  induction ps with
  | nil => intro s hs; exact ⟨s, rfl, hs⟩
  | cons p ps ih =>
    intro s hs
    obtain ⟨s1, h1, r1⟩ := hg p (by simp) s hs
    obtain ⟨s2, h2, r2⟩ := ih (fun q hq => hg q (by simp [hq])) s1 r1
    exact ⟨s2, by rw [List.foldlM_cons, h1]; exact h2, r2⟩

theorem go_some {lib : Lib} (fits : Fits lib) {V : Nat → Prop} : ∀ (n : Nat) (l r : Ty) (s : State), InOrder l → InOrder r →
    deep lib l + deep lib r < n → (∀ v, Types.Spec.Occurs v l ∨ Types.Spec.Occurs v r → V v) → Registered V s →
    ∃ s', go lib n l r s = some s' ∧ Registered V s'
  | 0, l, r, s, _, _, hn, _, _ => by omega
  | n + 1, l, r, s, hl, hr, hn, hV, hs => by
    rw [go]
    cases hstep : step lib l r with
    | nothing => exact ⟨s, rfl, hs⟩
    | upper v b =>
      obtain ⟨rfl, rfl⟩ := step_upper hstep
      obtain ⟨w, hw⟩ := Option.isSome_iff_exists.mp (hs v (hV v (.inl .var)))
      exact ⟨_, by simp only [addUpper, hw]; rfl, registered_set hs _ _⟩
    | lower v b =>
      obtain ⟨rfl, rfl⟩ := step_lower hstep
      obtain ⟨w, hw⟩ := Option.isSome_iff_exists.mp (hs v (hV v (.inr .var)))
      exact ⟨_, by simp only [addLower, hw]; rfl, registered_set hs _ _⟩
    | each ps =>
      have hp := step_each fits hl hr hstep
      refine fold_some ps ?_ s hs
      intro p hpm s hs
      obtain ⟨h1, h2, h3, h4, h5⟩ := hp p hpm
      exact go_some fits n p.1 p.2 s h1 h2 (by omega)
        (fun v hv => hV v (hv.imp (part_occurs fits h4) (part_occurs fits h5))) hs
    | call sig args =>
      obtain ⟨sh, b, ts, sh', b', ts', rfl, rfl, rfl, rfl⟩ := step_call hstep
      simp only
      split
      · exact ⟨s, rfl, hs⟩
      · refine fold_some _ ?_ _ hs
        rintro ⟨p, a⟩ hpm s hs
        obtain ⟨h1, h2⟩ := matches_mem hpm
        have h2' : a ∈ ts' := sigIn_inputs _ _ _ _ (h2.elim id (by rintro ⟨w, hw, -⟩; cases hw))
        have h1' : p ∈ ts := sigIn_inputs _ _ _ _ h1
        have d1 := deep_node (lib := lib) (h := .sig .func sh b) p h1'
        have d2 := deep_node (lib := lib) (h := .sig .func sh' b') a h2'
        exact go_some fits n a p s (inOrder_sub hr a h2') (inOrder_sub hl p h1') (by omega)
          (fun v hv => hV v (hv.elim (fun h => .inr (.node _ _ _ h2' h)) (fun h => .inl (.node _ _ _ h1' h)))) hs

/-- **C165.** No constraint brings the server down, or goes on for ever: if the variables in the types are known, it is gone through. -/
theorem never_fails {lib : Lib} (fits : Fits lib) {l r : Ty} {s : State} (hl : InOrder l) (hr : InOrder r)
    (h : ∀ v, Types.Spec.Occurs v l ∨ Types.Spec.Occurs v r → (s.vars v).isSome = true) : ∃ s', constrain lib l r s = some s' := by
  obtain ⟨s', h, -⟩ := go_some fits (V := fun v => Types.Spec.Occurs v l ∨ Types.Spec.Occurs v r) _ l r s hl hr (Nat.lt_succ_self _)
    (fun _ h => h) h
  exact ⟨s', h⟩

/-! ## What is learned -/

theorem consistent_iff {lib : Lib} {s : State} : Consistent lib s ↔ ∀ c ∈ s.seen, CallKnown lib s c :=
  ⟨fun h c hc p a hp f hf => h c.1 c.2.1 c.2.2 p a hc hp f hf, fun h sig args withs p a hc hp f hf => h (sig, args, withs) hc p a hp f hf⟩

theorem consistent_settled {lib : Lib} {s : State} (h : Consistent lib s) (m : Nat) : Settled lib m s :=
  fun sig args hc => .inl (consistent_iff.mp h _ hc)

theorem Result.consistent {lib : Lib} {s s' : State} {F : Fact → Prop} (h : Consistent lib s) (hr : Result lib F s s') : Consistent lib s' := by
  rw [consistent_iff] at h ⊢
  intro c hc
  rcases hr.fresh c hc with hc | hc
  · exact fun p a hp f hf => hr.knows (h c hc p a hp f hf)
  · exact hc

theorem constrain_result {lib : Lib} (fits : Fits lib) {l r : Ty} {s s' : State} (hl : InOrder l) (hr : InOrder r) (hc : Consistent lib s)
    (h : constrain lib l r s = some s') : Result lib (Tells lib l r) s s' :=
  go_result fits _ l r _ s s' hl hr (Nat.le_refl _) (consistent_settled hc _) h

/-- **C165.** All that is told is known afterwards.
Missing: variables used as variables and elements of arrays and tuples, of which nothing is learned. -/
theorem told_partial {lib : Lib} (fits : Fits lib) {l r : Ty} {s s' : State} (hl : InOrder l) (hr : InOrder r) (hc : Consistent lib s)
    (h : constrain lib l r s = some s') {f : Fact} (hf : Tells lib l r f) : Knows lib s' f :=
  (constrain_result fits hl hr hc h).told f hf

/-- **C165.** Nothing else is: each new bound of a variable is told, and of a value only the type is kept just if the variable is weak. -/
theorem only_told {lib : Lib} (fits : Fits lib) {l r : Ty} {s s' : State} (hl : InOrder l) (hr : InOrder r) (hc : Consistent lib s)
    (h : constrain lib l r s = some s') {v : Nat} {b' : Bounds} (hv : s'.vars v = some b') : ∃ b, s.vars v = some b ∧ b'.weak = b.weak ∧
      (∀ t ∈ b'.ubs, t ∈ b.ubs ∨ Tells lib l r (.atMost v t)) ∧
      (∀ t ∈ b'.lbs, t ∈ b.lbs ∨ ∃ u, Tells lib l r (.atLeast v u) ∧ Keeps lib b.weak u t) := by
  have hres := constrain_result fits hl hr hc h
  cases hs : s.vars v with
  | none => rw [hres.dom v hs] at hv; cases hv
  | some b =>
    obtain ⟨b1, h1, h2, -, -, h3, h4⟩ := hres.grow v b hs
    rw [hv] at h1; cases h1
    exact ⟨b, rfl, h2, h3, h4⟩

/-- **C165.** What was known stays known, and that the calls gone through are known stays true. -/
theorem kept {lib : Lib} (fits : Fits lib) {l r : Ty} {s s' : State} (hl : InOrder l) (hr : InOrder r) (hc : Consistent lib s)
    (h : constrain lib l r s = some s') : (∀ f, Knows lib s f → Knows lib s' f) ∧ Consistent lib s' :=
  have hres := constrain_result fits hl hr hc h
  ⟨fun _ => hres.knows, hres.consistent hc⟩

/-- The bounds of a variable that is not weak are just those it had and those that are told. -/
theorem strong_iff {lib : Lib} (fits : Fits lib) {l r : Ty} {s s' : State} (hl : InOrder l) (hr : InOrder r) (hc : Consistent lib s)
    (h : constrain lib l r s = some s') {v : Nat} {b : Bounds} (hv : s.vars v = some b) (hw : b.weak = false) : ∃ b', s'.vars v = some b' ∧
      b'.weak = false ∧ (∀ t, t ∈ b'.ubs ↔ t ∈ b.ubs ∨ Tells lib l r (.atMost v t)) ∧
      (∀ t, t ∈ b'.lbs ↔ t ∈ b.lbs ∨ Tells lib l r (.atLeast v t)) := by
  have hres := constrain_result fits hl hr hc h
  obtain ⟨b', h1, h2, h3, h4, h5, h6⟩ := hres.grow v b hv
  refine ⟨b', h1, h2.trans hw, fun t => ⟨h5 t, ?_⟩, fun t => ⟨?_, ?_⟩⟩
  · rintro (h | h)
    · exact h4 t h
    · obtain ⟨c, hc1, hc2⟩ := hres.told _ h
      rw [h1] at hc1; cases hc1; exact hc2
  · intro ht
    rcases h6 t ht with h | ⟨u, h, hk⟩
    · exact .inl h
    · rcases hk with ⟨hk, -⟩ | ⟨-, rfl⟩
      · rw [hw] at hk; cases hk
      · exact .inr h
  · rintro (h | h)
    · exact h3 t h
    · obtain ⟨c, hc1, hc2⟩ := hres.told _ h
      rw [h1] at hc1; cases hc1
      rcases hc2 with hc2 | ⟨hk, -⟩
      · exact hc2
      · rw [h2, hw] at hk; cases hk

/-- **C165.** In which order two uses are gone through does not matter for a variable that is not weak. -/
theorem any_order {lib : Lib} (fits : Fits lib) {l r l2 r2 : Ty} {s s1 s2 t1 t2 : State} (hl : InOrder l) (hr : InOrder r) (hl2 : InOrder l2)
    (hr2 : InOrder r2) (hc : Consistent lib s) (h1 : constrain lib l r s = some s1) (h2 : constrain lib l2 r2 s1 = some s2)
    (g1 : constrain lib l2 r2 s = some t1) (g2 : constrain lib l r t1 = some t2) {v : Nat} {b : Bounds} (hv : s.vars v = some b)
    (hw : b.weak = false) : ∃ a c, s2.vars v = some a ∧ t2.vars v = some c ∧ (∀ t, t ∈ a.lbs ↔ t ∈ c.lbs) ∧ (∀ t, t ∈ a.ubs ↔ t ∈ c.ubs) := by
  obtain ⟨b1, e1, w1, u1, d1⟩ := strong_iff fits hl hr hc h1 hv hw
  obtain ⟨b2, e2, w2, u2, d2⟩ := strong_iff fits hl2 hr2 (kept fits hl hr hc h1).2 h2 e1 w1
  obtain ⟨c1, e3, w3, u3, d3⟩ := strong_iff fits hl2 hr2 hc g1 hv hw
  obtain ⟨c2, e4, w4, u4, d4⟩ := strong_iff fits hl hr (kept fits hl2 hr2 hc g1).2 g2 e3 w3
  refine ⟨b2, c2, e2, e4, fun t => ?_, fun t => ?_⟩
  · rw [d2, d1, d4, d3, or_assoc, or_assoc, or_comm (a := Tells lib l r _)]
  · rw [u2, u1, u4, u3, or_assoc, or_assoc, or_comm (a := Tells lib l r _)]

/-! ## Calls -/

/-- The inputs of a signature are in order. -/
def InputsInOrder (s : SigTy) : Prop := ∀ t ∈ s.inputs, InOrder t

theorem inputs_result {lib : Lib} (fits : Fits lib) {sig args : SigTy} {withs : List SigTy} {s s' : State} (h1 : InputsInOrder sig)
    (h2 : InputsInOrder args) (h3 : ∀ w ∈ withs, InputsInOrder w) (hc : Consistent lib s) (h : constrainInputs lib sig args withs s = some s') :
    Result lib (fun f => ∃ p ∈ sig.matches args withs, Tells lib p.2 p.1 f) s s' := by
  unfold constrainInputs at h
  split at h
  · rename_i hseen
    cases h
    refine .known ?_
    rintro f ⟨⟨p, a⟩, hp, hf⟩
    exact consistent_iff.mp hc _ hseen p a hp f hf
  · have hdw : ∀ w ∈ withs, deepList lib w.inputs ≤ deepList lib (withs.flatMap (·.inputs)) := by
      intro w hw
      exact deepList_le fun t ht => deep_mem t (List.mem_flatMap.mpr ⟨w, hw, ht⟩)
    have hs1 : Settled lib (deepList lib sig.inputs + max (deepList lib args.inputs) (deepList lib (withs.flatMap (·.inputs))))
        { s with seen := (sig, args, withs) :: s.seen } := by
      intro sig' args' hm
      rcases List.mem_cons.mp hm with hm | hm
      · cases hm
        right
        unfold callDeep
        simp [deepList]
      · exact .inl (consistent_iff.mp hc _ hm)
    have := fold_result (T := fun p => Tells lib p.2 p.1) (sig.matches args withs)
      (fun p hpm s s' hs h => by
        obtain ⟨m1, m2⟩ := matches_mem (p := p.1) (q := p.2) hpm
        have o2 : InOrder p.2 ∧ deep lib p.2 ≤ max (deepList lib args.inputs) (deepList lib (withs.flatMap (·.inputs))) := by
          rcases m2 with m2 | ⟨w, hw, m2⟩
          · have := deep_mem (lib := lib) _ m2
            exact ⟨h2 _ m2, by omega⟩
          · have := deep_mem (lib := lib) _ m2
            have := hdw w hw
            exact ⟨h3 w hw _ m2, by omega⟩
        have := deep_mem (lib := lib) _ m1
        exact go_result fits _ p.2 p.1 _ s s' o2.1 (h1 _ m1) (by omega) hs h)
      _ s' hs1 h
    refine ⟨this.dom, this.grow, this.told, fun c hc => this.seen c (List.mem_cons_of_mem _ hc), ?_⟩
    intro c hc'
    rcases this.fresh c hc' with hc' | hc'
    · rcases List.mem_cons.mp hc' with rfl | hc'
      · exact .inr fun p a hp f hf => this.told f ⟨(p, a), hp, hf⟩
      · exact .inl hc'
    · exact .inr hc'

/-- **C165.** A parameter learns of the arguments it meets, however often the call is gone through. -/
theorem argument_learned {lib : Lib} (fits : Fits lib) {sig args : SigTy} {s s' : State} (h1 : InputsInOrder sig)
    (h2 : InputsInOrder args) (n1 : sig.shape.names.Pairwise (· < ·)) (n2 : args.shape.names.Pairwise (· < ·)) (hc : Consistent lib s)
    (h : constrainInputs lib sig args [] s = some s') {v : Nat} {a : Ty} (hm : Meets sig args (.var v) a) (ha : ¬ IsVar a) :
    Knows lib s' (.atLeast v a) ∧ Consistent lib s' := by
  have hres := inputs_result fits h1 h2 (by simp) hc h
  exact ⟨hres.told _ ⟨(.var v, a), (mem_matches n1 n2 _ _).mpr hm, .atLeast v a ha⟩, hres.consistent hc⟩

/-- **C165.** What is passed as an argument is learned to be what the parameter takes. -/
theorem passed_learned {lib : Lib} (fits : Fits lib) {sig args : SigTy} {s s' : State} (h1 : InputsInOrder sig)
    (h2 : InputsInOrder args) (n1 : sig.shape.names.Pairwise (· < ·)) (n2 : args.shape.names.Pairwise (· < ·)) (hc : Consistent lib s)
    (h : constrainInputs lib sig args [] s = some s') {v : Nat} {p : Ty} (hm : Meets sig args p (.var v)) (hp : ¬ IsVar p) :
    Knows lib s' (.atMost v p) :=
  (inputs_result fits h1 h2 (by simp) hc h).told _ ⟨(p, .var v), (mem_matches n1 n2 _ _).mpr hm, .atMost v p hp⟩

/-- **C165.** What is said to be in a list is one of its elements. -/
theorem contained {lib : Lib} (fits : Fits lib) {ts : List Ty} {v : Nat} {s s' : State} (hts : ∀ t ∈ ts, InOrder t) (hc : Consistent lib s)
    (h : checkContaining lib (.node .tuple ts) (.var v) true s = some s') : Knows lib s' (.atMost v (.node .union ts)) :=
  told_partial fits (l := .var v) (r := .node .union ts) trivial (allInOrder_mem.mpr hts) hc h (.atMost v _ (by rintro ⟨w, e⟩; cases e))

/-- **C165.** What is compared with a value may be that value. -/
theorem compared {lib : Lib} (fits : Fits lib) {v : Nat} {n : Nat} {s s' : State} (hc : Consistent lib s)
    (h : possibleEverBe lib (.var v) (.leaf (.value n)) s = some s') : Knows lib s' (.atLeast v (.leaf (.value n))) :=
  told_partial fits (l := .leaf (.value n)) (r := .var v) trivial trivial hc h (.atLeast v _ (by rintro ⟨w, e⟩; cases e))

/-! ## Weakening -/

theorem weakenVar_some {v : Nat} {s s' : State} (h : weakenVar v s = some s') :
    s'.seen = s.seen ∧ (∃ b, s.vars v = some b ∧ s'.vars v = some { b with weak := true }) ∧ ∀ w, w ≠ v → s'.vars w = s.vars w := by
  unfold weakenVar at h
  cases hv : s.vars v with
  | none => rw [hv] at h; cases h
  | some b =>
    rw [hv] at h
    cases h
    exact ⟨rfl, ⟨b, rfl, set_same _ _ _⟩, fun w hw => set_other _ _ hw⟩

/-- What weakening does. -/
def Weakened (R : Nat → Prop) (s s' : State) : Prop :=
  s'.seen = s.seen ∧ ∀ v, (R v → ∃ b, s.vars v = some b ∧ s'.vars v = some { b with weak := true }) ∧ (¬ R v → s'.vars v = s.vars v)

theorem Weakened.trans {R Q P : Nat → Prop} {s s1 s2 : State} (h1 : Weakened R s s1) (h2 : Weakened Q s1 s2) (hP : ∀ v, P v ↔ R v ∨ Q v) :
    Weakened P s s2 := by
  refine ⟨h2.1.trans h1.1, fun v => ⟨fun hv => ?_, fun hv => ?_⟩⟩
  · by_cases hr : R v
    · obtain ⟨b, e1, e2⟩ := (h1.2 v).1 hr
      by_cases hq : Q v
      · obtain ⟨c, e3, e4⟩ := (h2.2 v).1 hq
        rw [e2] at e3; cases e3
        exact ⟨b, e1, e4⟩
      · exact ⟨b, e1, ((h2.2 v).2 hq).trans e2⟩
    · have hq : Q v := ((hP v).mp hv).resolve_left hr
      obtain ⟨c, e3, e4⟩ := (h2.2 v).1 hq
      rw [(h1.2 v).2 hr] at e3
      exact ⟨c, e3, e4⟩
  · rw [hP, not_or] at hv
    rw [(h2.2 v).2 hv.2, (h1.2 v).2 hv.1]

theorem Weakened.id {R : Nat → Prop} (s : State) (h : ∀ v, ¬ R v) : Weakened R s s := ⟨rfl, fun v => ⟨fun hv => absurd hv (h v), fun _ => rfl⟩⟩

/-- The types that are gone through. -/
def shown (skip : Bool) (ts : List Ty) : List Ty := if skip then ts.dropLast else ts

theorem reached_node {v : Nat} {h : Head} {ts : List Ty} : Reached v (.node h ts) ↔ ∃ t ∈ shown (hasBody h) ts, Reached v t := by
  constructor
  · rintro (_ | ⟨_, _, t, h1, h2, ht, hr⟩ | ⟨k, s, ts, b, t, ht, hr⟩ | ⟨s, ts, b, t, ht, hr⟩)
    · have : hasBody h = false := by
        cases h with
        | sig k s b => cases b with
          | true => exact absurd rfl (h1 k s)
          | false => rfl
        | withArgs s b => cases b with
          | true => exact absurd rfl (h2 s)
          | false => rfl
        | _ => rfl
      rw [this]
      exact ⟨t, ht, hr⟩
    · exact ⟨t, by simpa [shown, hasBody] using ht, hr⟩
    · exact ⟨t, by simpa [shown, hasBody] using ht, hr⟩
  · rintro ⟨t, ht, hr⟩
    cases hb : hasBody h with
    | false =>
      rw [hb] at ht
      exact .node h ts t (by rintro k s rfl; cases hb) (by rintro s rfl; cases hb) ht hr
    | true =>
      rw [hb] at ht
      have hne : ts ≠ [] := by rintro rfl; cases ht
      have e := List.dropLast_concat_getLast hne
      have ht' : t ∈ ts.dropLast := ht
      rw [← e]
      cases h with
      | sig k s b => cases hb; exact .input k s _ _ t ht' hr
      | withArgs s b => cases hb; exact .given s _ _ t ht' hr
      | _ => cases hb

mutual
theorem weaken_some : ∀ (t : Ty) (s s' : State), weaken t s = some s' → Weakened (fun v => Reached v t) s s'
  | .leaf l, s, s', h => by
    rw [weaken] at h; cases h
    exact .id s (by intro v h; cases h)
  | .var v, s, s', h => by
    rw [weaken] at h
    obtain ⟨h1, h2, h3⟩ := weakenVar_some h
    refine ⟨h1, fun w => ⟨?_, fun hw => h3 w ?_⟩⟩
    · intro hr; cases hr; exact h2
    · rintro rfl; exact hw .var
  | .node h ts, s, s', hh => by
    rw [weaken] at hh
    have := weakenList_some (hasBody h) ts s s' hh
    have e : (fun v => Reached v (.node h ts)) = fun v => ∃ t ∈ shown (hasBody h) ts, Reached v t := funext fun v => propext reached_node
    rw [e]; exact this
theorem weakenList_some (skip : Bool) : ∀ (ts : List Ty) (s s' : State), weakenList skip ts s = some s' →
    Weakened (fun v => ∃ t ∈ shown skip ts, Reached v t) s s'
  | [], s, s', h => by
    rw [weakenList] at h; cases h
    exact .id s (by intro v; simp [shown])
  | [t], s, s', h => by
    rw [weakenList] at h
    cases skip with
    | true =>
      simp only [if_true] at h; cases h
      exact .id s (by intro v; simp [shown])
    | false =>
      simp only [Bool.false_eq_true, if_false] at h
      have := weaken_some t s s' h
      simpa [shown] using this
  | t :: u :: ts, s, s', h => by
    rw [weakenList] at h
    cases hw : weaken t s with
    | none => rw [hw] at h; cases h
    | some s1 =>
      rw [hw] at h
      have h1 := weaken_some t s s1 hw
      have h2 := weakenList_some skip (u :: ts) s1 s' h
      refine h1.trans h2 fun v => ?_
      cases skip <;> simp [shown]
end

/-- **C165.** Weakening a type weakens just the variables in it, other than in the bodies of functions, keeps what is known of them, and what
calls told stays known. -/
theorem weaken_iff {lib : Lib} {t : Ty} {s s' : State} (h : weaken t s = some s') :
    (∀ v, Reached v t → ∃ b, s.vars v = some b ∧ s'.vars v = some { b with weak := true }) ∧ (∀ v, ¬ Reached v t → s'.vars v = s.vars v) ∧
    (∀ f, Knows lib s f → Knows lib s' f) ∧ (Consistent lib s → Consistent lib s') := by
  obtain ⟨h1, h2⟩ := weaken_some t s s' h
  have hk : ∀ f, Knows lib s f → Knows lib s' f := by
    have hv : ∀ v b, s.vars v = some b → ∃ b', s'.vars v = some b' ∧ (b.weak = true → b'.weak = true) ∧ b'.lbs = b.lbs ∧ b'.ubs = b.ubs := by
      intro v b hb
      by_cases hr : Reached v t
      · obtain ⟨c, e1, e2⟩ := (h2 v).1 hr
        rw [hb] at e1; cases e1
        exact ⟨_, e2, fun _ => rfl, rfl, rfl⟩
      · exact ⟨b, ((h2 v).2 hr).trans hb, fun h => h, rfl, rfl⟩
    intro f hf
    cases f with
    | atMost v t =>
      obtain ⟨b, hb, ht⟩ := hf
      obtain ⟨b', e, -, -, e2⟩ := hv v b hb
      exact ⟨b', e, e2 ▸ ht⟩
    | atLeast v t =>
      obtain ⟨b, hb, ht⟩ := hf
      obtain ⟨b', e, hw, e2, -⟩ := hv v b hb
      exact ⟨b', e, ht.imp (fun h => e2 ▸ h) fun ⟨w, n, en, hn⟩ => ⟨hw w, n, en, e2 ▸ hn⟩⟩
  refine ⟨fun v => (h2 v).1, fun v => (h2 v).2, hk, ?_⟩
  intro hc sig args withs p a hm hp f hf
  rw [h1] at hm
  exact hk f (hc sig args withs p a hm hp f hf)

/-- **C165.** Nothing is known at the start, so that all is consistent. -/
theorem consistent_start (lib : Lib) (s : State) (h : s.seen = []) : Consistent lib s := by
  intro sig args withs p a hm
  rw [h] at hm; cases hm

/-! ## What is not learned -/

/-- **C165, violated.** That one variable is used as another is forgotten. -/
theorem variables_not_linked (lib : Lib) (v w : Nat) (s : State) : constrain lib (.var v) (.var w) s = some s := by
  unfold constrain
  rw [go]
  have : step lib (.var v) (.var w) = .nothing := by unfold step; split <;> rfl
  rw [this]

/-- **C165, violated.** Nothing is learned of the elements of arrays and tuples. -/
theorem elements_not_compared (lib : Lib) (h g : Head) (ts us : List Ty) (hh : h = .array ∨ h = .tuple) (hg : g = .array ∨ g = .tuple) (f : Fact) :
    ¬ Tells lib (.node h ts) (.node g us) f := by
  intro ht
  rcases hh with rfl | rfl <;> rcases hg with rfl | rfl <;> cases ht with
  | function _ _ _ _ _ _ _ _ h => cases h

/-- **C165, violated.** A dictionary that is used where either of two is wanted is taken for both of them: its field is at most each. -/
theorem all_alternatives (lib : Lib) {x v : Nat} {ts : List Ty} {a : Ty} (ha : ¬ IsVar a) (hm : Ty.node (.dict [x]) [a] ∈ ts) :
    Tells lib (.node (.dict [x]) [.var v]) (.node .union ts) (.atMost v a) := by
  refine .alternative _ _ _ _ (by rintro ⟨w, e⟩; cases e) (by rintro ⟨w, e⟩; cases e) hm ?_
  exact .field _ _ _ _ x 0 0 (.var v) a _ (by rintro e; cases e; exact ha ⟨v, rfl⟩) rfl rfl rfl rfl (.atMost v a ha)

/-! ## An example -/

/-- A library with a dictionary for fonts, in which a font is wanted again. -/
def exampleLib : Lib where
  short k := if k = 7 then some [(1, .leaf (.builtin 3)), (2, .leaf (.builtin 7))] else none
  isType l := l == .builtin 9
  typeOf := 0
  elementOf := 1
  notElementOf := 2
  lift n := .leaf (.builtin (n + 100))
  depth := 0

theorem exampleLib_fits : Fits exampleLib := by
  have key : ∀ k d, exampleLib.short k = some d → k = 7 ∧ d = [(1, .leaf (.builtin 3)), (2, .leaf (.builtin 7))] := by
    intro k d h
    unfold exampleLib at h
    simp only at h
    split at h
    · rename_i e; cases h; exact ⟨e, rfl⟩
    · cases h
  refine ⟨?_, ?_, ?_, ?_⟩
  · intro k d h; obtain ⟨rfl, rfl⟩ := key k d h; simp [InOrder, AllInOrder]
  · intro k d h; obtain ⟨rfl, rfl⟩ := key k d h; decide
  · intro k d h x t v hm ho
    obtain ⟨rfl, rfl⟩ := key k d h
    simp at hm
    rcases hm with ⟨-, rfl⟩ | ⟨-, rfl⟩ <;> cases ho
  · intro k d h x t hm
    obtain ⟨rfl, rfl⟩ := key k d h
    simp at hm
    rcases hm with ⟨-, rfl⟩ | ⟨-, rfl⟩ <;> decide

/-- A dictionary whose name is a variable is used as a font. -/
example : Tells exampleLib (.node (.dict [2]) [.var 5]) (.leaf (.builtin 7)) (.atMost 5 (.leaf (.builtin 7))) :=
  .written _ _ 7 _ _ rfl (.field _ _ _ _ 2 0 1 (.var 5) (.leaf (.builtin 7)) _ (by simp) rfl rfl rfl rfl (.atMost 5 _ (by rintro ⟨w, e⟩; cases e)))

end Tinymist.Constrain
