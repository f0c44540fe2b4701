import Verif.Lemmas.Lint
/-! # The linter: values before a return -/
namespace Tinymist.Lint

mutual
/-- Inside of an operand nothing is warned about. -/
theorem late_expr : ∀ (e : Expr) (s : Late), s.ctx ≠ .block → (late e s).diag = s.diag
  | .lit _ _, s, h => by rw [late, value, if_neg h]
  | .name, s, h => by rw [late]
  | .paren e, s, h => by rw [late]; exact late_expr e s h
  | .block es, s, h => by
    rw [late]
    exact lates_expr es { s with ctx := inner .block s.ctx } (by simp [inner, h])
  | .seq es, s, h => by rw [late]; exact lates_expr es s h
  | .coll _ _, s, h => by rw [late, value, if_neg h]
  | .include _, s, h => by rw [late, value, if_neg h]
  | .unary e, s, h => by rw [late]; exact late_expr e { s with ctx := .expr } (by simp)
  | .binary l r, s, h => by
    rw [late]
    show (late l (late r { s with ctx := .expr })).diag = s.diag
    rw [late_expr l _ (by rw [late_ctx]; simp)]
    exact late_expr r { s with ctx := .expr } (by simp)
  | .field _, s, h => by rw [late]
  | .call _ _, s, h => by rw [late]
  | .closure _ _, s, h => by rw [late]
  | .letIn _, s, h => by rw [late]
  | .destruct _, s, h => by rw [late]
  | .set .., s, h => by rw [late, value, if_neg h]
  | .show .., s, h => by rw [late, value, if_neg h]
  | .contextual _ _, s, h => by rw [late]
  | .cond _ t els, s, h => by
    rw [late]
    show (lates els { late t s with info := s.info }).diag = s.diag
    rw [lates_expr els { late t s with info := s.info } (by rw [late_ctx]; exact h)]
    exact late_expr t s h
  | .while _ _ b, s, h => by rw [late]; exact late_expr b s h
  | .for _ _ b, s, h => by rw [late]; exact late_expr b s h
  | .break _, s, h => by rw [late]
  | .continue _, s, h => by rw [late]
  | .ret _ _, s, h => by rw [late]
theorem lates_expr : ∀ (es : List Expr) (s : Late), s.ctx ≠ .block → (lates es s).diag = s.diag
  | [], s, h => by rw [lates]
  | e :: es, s, h => by rw [lates, late_expr e _ (by rw [lates_ctx]; exact h), lates_expr es s h]
end

/-- What is known about returns is right, if `K v` says whether a return, with a value or without, may come next. -/
def Knows (info : Option Info) (K : Bool → Prop) : Prop :=
  ∀ i, info = some i → (i.value = true → K true) ∧ (i.none = true → K false)

theorem knows_mono {info : Option Info} {K K' : Bool → Prop} (h : Knows info K) (hk : ∀ v, K v → K' v) : Knows info K' :=
  fun i hi => ⟨fun hv => hk _ ((h i hi).1 hv), fun hn => hk _ ((h i hi).2 hn)⟩

/-- What comes next from the beginning of an expression. -/
def Before (e : Expr) (K : Bool → Prop) (v : Bool) : Prop := (Run e .normal ∧ K v) ∨ Run e (.ret v)
def Befores (es : List Expr) (K : Bool → Prop) (v : Bool) : Prop := (Runs es .normal ∧ K v) ∨ Runs es (.ret v)

/-- A value of which is said rightly that it is thrown away. -/
def Warn (e : Expr) (K : Bool → Prop) (d : Diag) : Prop :=
  ∃ id rule y v, d = .discarded id rule ∧ Shown y id rule ∧ (v = true ∨ rule = true) ∧
    ((After y e .normal ∧ K v) ∨ After y e (.ret v))
def Warns (es : List Expr) (K : Bool → Prop) (d : Diag) : Prop :=
  ∃ id rule y v, d = .discarded id rule ∧ Shown y id rule ∧ (v = true ∨ rule = true) ∧
    ((Afters y es .normal ∧ K v) ∨ Afters y es (.ret v))

theorem warn_mono {e : Expr} {e' : Expr} {K : Bool → Prop} {d : Diag} (h : ∀ y f, After y e f → After y e' f) (hw : Warn e K d) :
    Warn e' K d := by
  obtain ⟨id, rule, y, v, hd, hs, hv, h' | h'⟩ := hw
  · exact ⟨id, rule, y, v, hd, hs, hv, .inl ⟨h _ _ h'.1, h'.2⟩⟩
  · exact ⟨id, rule, y, v, hd, hs, hv, .inr (h _ _ h')⟩

theorem warns_mono {es : List Expr} {e' : Expr} {K : Bool → Prop} {d : Diag} (h : ∀ y f, Afters y es f → After y e' f)
    (hw : Warns es K d) : Warn e' K d := by
  obtain ⟨id, rule, y, v, hd, hs, hv, h' | h'⟩ := hw
  · exact ⟨id, rule, y, v, hd, hs, hv, .inl ⟨h _ _ h'.1, h'.2⟩⟩
  · exact ⟨id, rule, y, v, hd, hs, hv, .inr (h _ _ h')⟩

/-- The result of the late pass is right. -/
def Right (s t : Late) (P : Bool → Prop) (W : Diag → Prop) : Prop :=
  Knows t.info P ∧ ∀ d ∈ t.diag, d ∈ s.diag ∨ W d

theorem right_value {id : Nat} {skip rule : Bool} {s : Late} {K : Bool → Prop} {y : Expr} (hk : Knows s.info K)
    (hy : skip = false → Shown y id rule) (ha : Atom y) : Right s (value id skip rule s) (Before y K) (Warn y K) := by
  have hk' : Knows s.info (Before y K) := knows_mono hk fun v hv => .inl ⟨.atom ha, hv⟩
  unfold value
  split
  · split
    · exact ⟨hk', fun d hd => .inl hd⟩
    · rename_i i hi
      have hw : ∀ i', i'.value = i.value → i'.none = i.none → Knows (some i') (Before y K) := by
        intro i' h1 h2 j hj
        cases hj
        rw [h1, h2]
        exact hk' i hi
      split
      · exact ⟨hk', fun d hd => .inl hd⟩
      · rename_i hs
        simp only [Bool.or_eq_true, not_or, Bool.not_eq_true] at hs
        split
        · rename_i hv
          refine ⟨hw _ rfl rfl, fun d hd => ?_⟩
          rcases List.mem_append.mp hd with hd | hd
          · exact .inl hd
          · exact .inr ⟨id, rule, y, true, by simpa using hd, hy hs.2, .inl rfl, .inl ⟨.here, (hk i hi).1 hv⟩⟩
        · split
          · rename_i hn
            simp only [Bool.and_eq_true] at hn
            refine ⟨hw _ rfl rfl, fun d hd => ?_⟩
            rcases List.mem_append.mp hd with hd | hd
            · exact .inl hd
            · exact .inr ⟨id, rule, y, false, by simpa using hd, hy hs.2, .inr hn.2, .inl ⟨.here, (hk i hi).2 hn.1⟩⟩
          · exact ⟨hk', fun d hd => .inl hd⟩
  · exact ⟨hk', fun d hd => .inl hd⟩

theorem right_atom {s : Late} {K : Bool → Prop} {y : Expr} (hk : Knows s.info K) (ha : Atom y) :
    Right s s (Before y K) (Warn y K) :=
  ⟨knows_mono hk fun _ hv => .inl ⟨.atom ha, hv⟩, fun _ hd => .inl hd⟩

theorem befores_cons {e : Expr} {es : List Expr} {K : Bool → Prop} (v : Bool) (h : Before e (Befores es K) v) :
    Befores (e :: es) K v := by
  rcases h with ⟨h1, h | h⟩ | h
  · exact .inl ⟨.next h1 h.1, h.2⟩
  · exact .inr (.next h1 h)
  · exact .inr (.stop h (by simp))

theorem knows_join {a b : Option Info} {K : Bool → Prop} (ha : Knows a K) (hb : Knows b K) : Knows (join a b) K := by
  intro i hi
  rw [join.eq_def] at hi
  split at hi
  · exact hb i hi
  · split at hi
    · split at hi
      · cases hi; exact hb _ rfl
      · cases hi
        refine ⟨fun h => (ha _ rfl).1 ?_, fun h => (ha _ rfl).2 ?_⟩ <;> simp only [Info.merge, Bool.and_eq_true] at h <;> exact h.1
    · cases hi; exact ha _ rfl

mutual
theorem late_right : ∀ (e : Expr) (s : Late) (K : Bool → Prop), Knows s.info K → Right s (late e s) (Before e K) (Warn e K)
  | .lit k id, s, K, hk => by
    rw [late]
    exact right_value hk (fun h => .inl ⟨.inl (by simp at h; rw [h]), rfl⟩) trivial
  | .name, s, K, hk => by rw [late]; exact right_atom hk trivial
  | .paren e, s, K, hk => by
    rw [late]
    have h := late_right e s K hk
    refine ⟨knows_mono h.1 ?_, fun d hd => (h.2 d hd).imp id (warn_mono fun _ _ => .paren)⟩
    rintro v (⟨h1, h2⟩ | h1)
    · exact .inl ⟨.paren h1, h2⟩
    · exact .inr (.paren h1)
  | .block es, s, K, hk => by
    rw [late]
    have h := lates_right es { s with ctx := inner .block s.ctx } K hk
    refine ⟨knows_mono h.1 ?_, fun d hd => (h.2 d hd).imp id (warns_mono fun _ _ => .block)⟩
    rintro v (⟨h1, h2⟩ | h1)
    · exact .inl ⟨.block h1, h2⟩
    · exact .inr (.block h1)
  | .seq es, s, K, hk => by
    rw [late]
    have h := lates_right es s K hk
    refine ⟨knows_mono h.1 ?_, fun d hd => (h.2 d hd).imp id (warns_mono fun _ _ => .seq)⟩
    rintro v (⟨h1, h2⟩ | h1)
    · exact .inl ⟨.seq h1, h2⟩
    · exact .inr (.seq h1)
  | .coll id es, s, K, hk => by
    rw [late]
    exact right_value hk (fun _ => .inl ⟨.inr (.inl ⟨es, rfl⟩), rfl⟩) trivial
  | .include id, s, K, hk => by
    rw [late]
    exact right_value hk (fun _ => .inl ⟨.inr (.inr rfl), rfl⟩) trivial
  | .unary e, s, K, hk => by
    rw [late]
    have h := late_right e { s with ctx := .expr } K hk
    refine ⟨knows_mono h.1 ?_, fun d hd => .inl ?_⟩
    · rintro v (⟨h1, h2⟩ | h1)
      · exact .inl ⟨.unary h1, h2⟩
      · exact .inr (.unary h1)
    · rw [late_expr e { s with ctx := .expr } (by simp)] at hd
      exact hd
  | .binary l r, s, K, hk => by
    rw [late]
    have h1 := late_right r { s with ctx := .expr } K hk
    have h2 := late_right l _ _ h1.1
    refine ⟨knows_mono h2.1 ?_, fun d hd => .inl ?_⟩
    · intro v h
      have hr : ∀ v, Before r K v → Befores [r] K v := by
        rintro v (⟨h1, h2⟩ | h1)
        · exact .inl ⟨.next h1 .nil, h2⟩
        · exact .inr (.stop h1 (by simp))
      have h' : Before l (Befores [r] K) v := by
        rcases h with ⟨h1, h2⟩ | h1
        · exact .inl ⟨h1, hr _ h2⟩
        · exact .inr h1
      rcases befores_cons v h' with ⟨h1, h2⟩ | h1
      · exact .inl ⟨.binary h1, h2⟩
      · exact .inr (.binary h1)
    · have hd' : d ∈ (late l (late r { s with ctx := .expr })).diag := hd
      rw [late_expr l _ (by rw [late_ctx]; simp), late_expr r _ (by simp)] at hd'
      exact hd'
  | .field _, s, K, hk => by rw [late]; exact right_atom hk trivial
  | .call _ _, s, K, hk => by rw [late]; exact right_atom hk trivial
  | .closure _ _, s, K, hk => by rw [late]; exact right_atom hk trivial
  | .letIn _, s, K, hk => by rw [late]; exact right_atom hk trivial
  | .destruct _, s, K, hk => by rw [late]; exact right_atom hk trivial
  | .set id c a t, s, K, hk => by
    rw [late]
    exact right_value hk (fun _ => .inr ⟨.inl ⟨c, a, t, rfl⟩, rfl⟩) trivial
  | .show id sel t, s, K, hk => by
    rw [late]
    exact right_value hk (fun _ => .inr ⟨.inr ⟨sel, t, rfl⟩, rfl⟩) trivial
  | .contextual _ _, s, K, hk => by rw [late]; exact right_atom hk trivial
  | .cond c t els, s, K, hk => by
    rw [late]
    have h1 := late_right t s K hk
    have h2 := lates_right els { late t s with info := s.info } K hk
    refine ⟨knows_join (knows_mono h1.1 ?_) (knows_mono h2.1 ?_), fun d hd => ?_⟩
    · rintro v (⟨h1, h2⟩ | h1)
      · exact .inl ⟨.then h1, h2⟩
      · exact .inr (.then h1)
    · rintro v (⟨h1, h2⟩ | h1)
      · exact .inl ⟨.else h1, h2⟩
      · exact .inr (.else h1)
    · rcases h2.2 d hd with h | h
      · exact (h1.2 d h).imp id (warn_mono fun _ _ => .then)
      · exact .inr (warns_mono (fun _ _ => .else) h)
  | .while id c b, s, K, hk => by
    rw [late]
    have h := late_right b s K hk
    refine ⟨knows_mono h.1 ?_, fun d hd => (h.2 d hd).imp _root_.id ?_⟩
    · rintro v (⟨_, h2⟩ | h1)
      · exact .inl ⟨.whileEnd, h2⟩
      · exact .inr (.whileRet h1)
    · rintro ⟨id', rule, y, v, hd, hs, hv, h' | h'⟩
      · exact ⟨id', rule, y, v, hd, hs, hv, .inl ⟨.whileNext h'.1 (.inl rfl) .whileEnd, h'.2⟩⟩
      · exact ⟨id', rule, y, v, hd, hs, hv, .inr (.whileRet h')⟩
  | .for id c b, s, K, hk => by
    rw [late]
    have h := late_right b s K hk
    refine ⟨knows_mono h.1 ?_, fun d hd => (h.2 d hd).imp _root_.id ?_⟩
    · rintro v (⟨_, h2⟩ | h1)
      · exact .inl ⟨.forEnd, h2⟩
      · exact .inr (.forRet h1)
    · rintro ⟨id', rule, y, v, hd, hs, hv, h' | h'⟩
      · exact ⟨id', rule, y, v, hd, hs, hv, .inl ⟨.forNext h'.1 (.inl rfl) .forEnd, h'.2⟩⟩
      · exact ⟨id', rule, y, v, hd, hs, hv, .inr (.forRet h')⟩
  | .break _, s, K, hk => by
    rw [late]
    exact ⟨by intro i hi; cases hi; simp, fun d hd => .inl hd⟩
  | .continue _, s, K, hk => by
    rw [late]
    exact ⟨by intro i hi; cases hi; simp, fun d hd => .inl hd⟩
  | .ret id v, s, K, hk => by
    rw [late]
    refine ⟨?_, fun d hd => .inl hd⟩
    intro i hi
    cases v with
    | nil =>
      cases hi
      refine ⟨?_, fun _ => .inr (.ret (id := id) (v := []))⟩
      intro h; cases h
    | cons x v =>
      cases hi
      refine ⟨fun _ => .inr (.ret (id := id) (v := x :: v)), ?_⟩
      intro h; cases h
theorem lates_right : ∀ (es : List Expr) (s : Late) (K : Bool → Prop), Knows s.info K →
    Right s (lates es s) (Befores es K) (Warns es K)
  | [], s, K, hk => by
    rw [lates]
    exact ⟨knows_mono hk fun v hv => .inl ⟨.nil, hv⟩, fun d hd => .inl hd⟩
  | e :: es, s, K, hk => by
    rw [lates]
    have h1 := lates_right es s K hk
    have h2 := late_right e _ _ h1.1
    refine ⟨knows_mono h2.1 befores_cons, fun d hd => ?_⟩
    rcases h2.2 d hd with h | ⟨id, rule, y, v, hd, hs, hv, ⟨h', h3 | h3⟩ | h'⟩
    · rcases h1.2 d h with h | ⟨id, rule, y, v, hd, hs, hv, h' | h'⟩
      · exact .inl h
      · exact .inr ⟨id, rule, y, v, hd, hs, hv, .inl ⟨.later h'.1, h'.2⟩⟩
      · exact .inr ⟨id, rule, y, v, hd, hs, hv, .inr (.later h')⟩
    · exact .inr ⟨id, rule, y, v, hd, hs, hv, .inl ⟨.next h' h3.1, h3.2⟩⟩
    · exact .inr ⟨id, rule, y, v, hd, hs, hv, .inr (.next h' h3)⟩
    · exact .inr ⟨id, rule, y, v, hd, hs, hv, .inr (.stop h' (by simp))⟩
end

/-! ## Values that are warned about -/

theorem value_keeps {id : Nat} {a b : Bool} {s : Late} {d : Diag} (h : d ∈ s.diag) : d ∈ (value id a b s).diag := by
  unfold value
  split
  · split
    · exact h
    · split
      · exact h
      · split
        · exact List.mem_append.mpr (.inl h)
        · split
          · exact List.mem_append.mpr (.inl h)
          · exact h
  · exact h

mutual
theorem late_keeps : ∀ (e : Expr) (s : Late) (d : Diag), d ∈ s.diag → d ∈ (late e s).diag
  | .lit _ _, s, d, h => by rw [late]; exact value_keeps h
  | .name, s, d, h => by rw [late]; exact h
  | .paren e, s, d, h => by rw [late]; exact late_keeps e s d h
  | .block es, s, d, h => by rw [late]; exact lates_keeps es { s with ctx := inner .block s.ctx } d h
  | .seq es, s, d, h => by rw [late]; exact lates_keeps es s d h
  | .coll _ _, s, d, h => by rw [late]; exact value_keeps h
  | .include _, s, d, h => by rw [late]; exact value_keeps h
  | .unary e, s, d, h => by rw [late]; exact late_keeps e { s with ctx := .expr } d h
  | .binary l r, s, d, h => by rw [late]; exact late_keeps l _ d (late_keeps r { s with ctx := .expr } d h)
  | .field _, s, d, h => by rw [late]; exact h
  | .call _ _, s, d, h => by rw [late]; exact h
  | .closure _ _, s, d, h => by rw [late]; exact h
  | .letIn _, s, d, h => by rw [late]; exact h
  | .destruct _, s, d, h => by rw [late]; exact h
  | .set .., s, d, h => by rw [late]; exact value_keeps h
  | .show .., s, d, h => by rw [late]; exact value_keeps h
  | .contextual _ _, s, d, h => by rw [late]; exact h
  | .cond _ t els, s, d, h => by
    rw [late]; exact lates_keeps els { late t s with info := s.info } d (late_keeps t s d h)
  | .while _ _ b, s, d, h => by rw [late]; exact late_keeps b s d h
  | .for _ _ b, s, d, h => by rw [late]; exact late_keeps b s d h
  | .break _, s, d, h => by rw [late]; exact h
  | .continue _, s, d, h => by rw [late]; exact h
  | .ret _ _, s, d, h => by rw [late]; exact h
theorem lates_keeps : ∀ (es : List Expr) (s : Late) (d : Diag), d ∈ s.diag → d ∈ (lates es s).diag
  | [], s, d, h => by rw [lates]; exact h
  | e :: es, s, d, h => by rw [lates]; exact late_keeps e _ d (lates_keeps es s d h)
end

theorem lates_append (es fs : List Expr) (s : Late) : lates (es ++ fs) s = lates es (lates fs s) := by
  induction es with
  | nil => rw [List.nil_append, lates]
  | cons e es ih => rw [List.cons_append, lates, lates, ih]

theorem lates_same {mid : List Expr} (h : ∀ m ∈ mid, ∀ s : Late, late m s = s) (t : Late) : lates mid t = t := by
  induction mid with
  | nil => rw [lates]
  | cons m mid ih => rw [lates, ih (fun m hm => h m (.tail _ hm)), h m (.head _)]

/-- A value, or a rule, right before a return. -/
theorem lates_warned {pre mid post : List Expr} {x : Expr} {id rid : Nat} {rule : Bool} {v : List Expr}
    (hx : Shown x id rule) (hmid : ∀ m ∈ mid, ∀ s : Late, late m s = s) (hv : v ≠ [] ∨ rule = true) {s : Late}
    (hs : s.ctx = .block) : .discarded id rule ∈ (lates (pre ++ x :: mid ++ .ret rid v :: post) s).diag := by
  rw [List.append_assoc, lates_append]
  apply lates_keeps
  rw [List.cons_append, lates, lates_append, lates, late]
  have hc := lates_ctx post s
  rw [lates_same hmid]
  generalize lates post s = t at *
  rw [hs] at hc
  have hval : ∀ i : Info, i.warned = false → (i.value = true ∨ (i.none = true ∧ rule = true)) →
      .discarded id rule ∈ (value id false rule { t with info := some i }).diag := by
    intro i hw h
    unfold value
    rw [if_pos hc]
    simp only [hw, Bool.or_false, Bool.false_eq_true, if_false]
    rcases h with h | ⟨h1, h2⟩
    · simp [h]
    · split
      · simp
      · simp [h1, h2]
  have hi : .discarded id rule ∈ (value id false rule
      { t with info := some (if v.isEmpty = true then ⟨false, true, false⟩ else ⟨true, false, false⟩) }).diag := by
    cases v with
    | nil => exact hval _ rfl (.inr ⟨rfl, hv.resolve_left (by simp)⟩)
    | cons => exact hval _ rfl (.inl rfl)
  rcases hx with ⟨rfl | ⟨es, rfl⟩ | rfl, rfl⟩ | ⟨⟨c, a, t', rfl⟩ | ⟨sel, t', rfl⟩, rfl⟩ <;> rw [late] <;> exact hi

end Tinymist.Lint
