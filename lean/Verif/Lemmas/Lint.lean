import Verif.Spec.Lint
/-! # The linter: lemmas -/
namespace Tinymist.Lint

/-! ## The late pass -/

theorem value_ctx (id : Nat) (a b : Bool) (s : Late) : (value id a b s).ctx = s.ctx := by
  unfold value
  split
  · split
    · rfl
    · split
      · rfl
      · split
        · rfl
        · split <;> rfl
  · rfl

mutual
theorem late_ctx : ∀ (e : Expr) (s : Late), (late e s).ctx = s.ctx
  | .lit _ _, s => by rw [late]; exact value_ctx ..
  | .name, s => by rw [late]
  | .paren e, s => by rw [late]; exact late_ctx e s
  | .block es, s => by rw [late]
  | .seq es, s => by rw [late]; exact lates_ctx es s
  | .coll _ _, s => by rw [late]; exact value_ctx ..
  | .include _, s => by rw [late]; exact value_ctx ..
  | .unary e, s => by rw [late]
  | .binary l r, s => by rw [late]
  | .field _, s => by rw [late]
  | .call _ _, s => by rw [late]
  | .closure _ _, s => by rw [late]
  | .letIn _, s => by rw [late]
  | .destruct _, s => by rw [late]
  | .set .., s => by rw [late]; exact value_ctx ..
  | .show .., s => by rw [late]; exact value_ctx ..
  | .contextual _ _, s => by rw [late]
  | .cond _ t els, s => by
    rw [late]
    show (lates els { late t s with info := s.info }).ctx = s.ctx
    rw [lates_ctx els]
    exact late_ctx t s
  | .while _ _ b, s => by rw [late]; exact late_ctx b s
  | .for _ _ b, s => by rw [late]; exact late_ctx b s
  | .break _, s => by rw [late]
  | .continue _, s => by rw [late]
  | .ret _ _, s => by rw [late]
theorem lates_ctx : ∀ (es : List Expr) (s : Late), (lates es s).ctx = s.ctx
  | [], s => by rw [lates]
  | e :: es, s => by rw [lates, late_ctx e, lates_ctx es]
end

/-- What was warned about before does not matter. -/
def pre (d : List Diag) (s : Late) : Late := { s with diag := d ++ s.diag }

theorem value_pre (id : Nat) (a b : Bool) (d : List Diag) (s : Late) : value id a b (pre d s) = pre d (value id a b s) := by
  obtain ⟨info, ctx, diag⟩ := s
  simp only [value, pre]
  cases info with
  | none => by_cases hc : ctx = .block <;> simp [hc]
  | some i =>
    by_cases hc : ctx = .block
    · simp only [hc, if_true]
      by_cases h1 : (i.warned || a) = true
      · simp [h1]
      · simp only [h1]
        by_cases h2 : i.value = true
        · simp [h2]
        · simp only [h2]
          by_cases h3 : (i.none && b) = true
          · simp [h3]
          · simp [h3]
    · simp [hc]

mutual
theorem late_pre (d : List Diag) : ∀ (e : Expr) (s : Late), late e (pre d s) = pre d (late e s)
  | .lit _ _, s => by simp only [late]; exact value_pre ..
  | .name, s => by simp only [late]
  | .paren e, s => by simp only [late]; exact late_pre d e s
  | .block es, s => by
    simp only [late]
    rw [show ({ pre d s with ctx := inner .block (pre d s).ctx } : Late) = pre d { s with ctx := inner .block s.ctx } from rfl,
      lates_pre d es]
    rfl
  | .seq es, s => by simp only [late]; exact lates_pre d es s
  | .coll _ _, s => by simp only [late]; exact value_pre ..
  | .include _, s => by simp only [late]; exact value_pre ..
  | .unary e, s => by
    simp only [late]
    rw [show ({ pre d s with ctx := .expr } : Late) = pre d { s with ctx := .expr } from rfl, late_pre d e]
    rfl
  | .binary l r, s => by
    simp only [late]
    rw [show ({ pre d s with ctx := .expr } : Late) = pre d { s with ctx := .expr } from rfl, late_pre d r, late_pre d l]
    rfl
  | .field _, s => by simp only [late]
  | .call _ _, s => by simp only [late]
  | .closure _ _, s => by simp only [late]
  | .letIn _, s => by simp only [late]
  | .destruct _, s => by simp only [late]
  | .set .., s => by simp only [late]; exact value_pre ..
  | .show .., s => by simp only [late]; exact value_pre ..
  | .contextual _ _, s => by simp only [late]
  | .cond _ t els, s => by
    simp only [late]
    rw [late_pre d t s, show ({ pre d (late t s) with info := (pre d s).info } : Late) = pre d { late t s with info := s.info }
      from rfl, lates_pre d els]
    rfl
  | .while _ _ b, s => by simp only [late]; exact late_pre d b s
  | .for _ _ b, s => by simp only [late]; exact late_pre d b s
  | .break _, s => by simp only [late]; rfl
  | .continue _, s => by simp only [late]; rfl
  | .ret _ _, s => by simp only [late]; rfl
theorem lates_pre (d : List Diag) : ∀ (es : List Expr) (s : Late), lates es (pre d s) = pre d (lates es s)
  | [], s => by simp only [lates]
  | e :: es, s => by simp only [lates]; rw [lates_pre d es, late_pre d e]
end

theorem late_start (body : Expr) (d : List Diag) :
    (late body ⟨none, .block, d⟩).diag = d ++ (late body ⟨none, .block, []⟩).diag := by
  have := late_pre d body ⟨none, .block, []⟩
  rw [show pre d ⟨none, .block, []⟩ = ⟨none, .block, d⟩ by simp [pre]] at this
  rw [this]
  rfl

/-! ## What the main pass keeps -/

/-- The same function, which may have got a return. -/
def SameFn : Option Fn → Option Fn → Prop
  | none, g => g = none
  | some f, g => ∃ r, g = some { f with hasReturn := r } ∧ (f.hasReturn = true → r = true)

theorem sameFn_refl (f : Option Fn) : SameFn f f := by
  cases f with
  | none => rfl
  | some f => exact ⟨f.hasReturn, rfl, id⟩

theorem sameFn_trans {f g h : Option Fn} (a : SameFn f g) (b : SameFn g h) : SameFn f h := by
  cases f with
  | none => cases a; cases b; rfl
  | some f =>
    obtain ⟨r, rfl, hr⟩ := a
    obtain ⟨r', rfl, hr'⟩ := b
    exact ⟨r', rfl, fun h => hr' (hr h)⟩

structure Keeps (s t : St) : Prop where
  loop : t.loop = s.loop
  fn : SameFn s.fn t.fn
  panicked : t.panicked = s.panicked

theorem keeps_refl (s : St) : Keeps s s := ⟨rfl, sameFn_refl _, rfl⟩

theorem keeps_trans {s t u : St} (a : Keeps s t) (b : Keeps t u) : Keeps s u :=
  ⟨b.loop.trans a.loop, sameFn_trans a.fn b.fn, b.panicked.trans a.panicked⟩

theorem keeps_buggy (e : Expr) (s : St) : Keeps s (buggyBlock e s) := by
  unfold buggyBlock
  split
  · exact keeps_refl s
  · split
    · exact ⟨rfl, sameFn_refl _, rfl⟩
    · exact keeps_refl s

theorem keeps_fn {id : Nat} {body : Expr} {s : St}
    (h : Keeps { s with fn := some ⟨id, false, s.loop⟩, loop := none }
      (expr body { s with fn := some ⟨id, false, s.loop⟩, loop := none })) :
    Keeps s (leaveFn s.fn (lateReturn body (expr body { s with fn := some ⟨id, false, s.loop⟩, loop := none }))) ∧
      (leaveFn s.fn (lateReturn body (expr body { s with fn := some ⟨id, false, s.loop⟩, loop := none }))).fn = s.fn := by
  obtain ⟨_, ⟨r, hf, _⟩, hp⟩ := h
  generalize expr body { s with fn := some ⟨id, false, s.loop⟩, loop := none } = t at *
  have h1 : (lateReturn body t).fn = t.fn ∧ (lateReturn body t).panicked = t.panicked := by
    simp only [lateReturn, hf]
    split <;> exact ⟨hf.symm ▸ rfl, rfl⟩
  have e : leaveFn s.fn (lateReturn body t) = { lateReturn body t with loop := s.loop, fn := s.fn } := by
    simp only [leaveFn, h1.1, hf]
  rw [e]
  refine ⟨⟨rfl, sameFn_refl _, ?_⟩, rfl⟩
  show (lateReturn body t).panicked = _
  rw [h1.2, hp]

mutual
theorem keeps_expr : ∀ (e : Expr) (s : St), Keeps s (expr e s)
  | .lit _ _, s => by rw [expr]; exact keeps_refl s
  | .name, s => by rw [expr]; exact keeps_refl s
  | .paren e, s => by rw [expr]; exact keeps_expr e s
  | .block es, s => by rw [expr]; exact keeps_exprs es s
  | .seq es, s => by rw [expr]; exact keeps_exprs es s
  | .coll _ es, s => by rw [expr]; exact keeps_exprs es s
  | .include _, s => by rw [expr]; exact keeps_refl s
  | .unary e, s => by rw [expr]; exact keeps_expr e s
  | .binary l r, s => by rw [expr]; exact keeps_trans (keeps_expr l s) (keeps_expr r _)
  | .field e, s => by rw [expr]; exact keeps_expr e s
  | .call _ _, s => by rw [expr]; exact keeps_refl s
  | .closure id body, s => by rw [expr]; exact (keeps_fn (keeps_expr body _)).1
  | .letIn es, s => by rw [expr]; exact keeps_exprs es s
  | .destruct e, s => by rw [expr]; exact keeps_expr e s
  | .set _ c a t, s => by
    rw [expr]; exact keeps_trans (keeps_trans (keeps_exprs c s) (keeps_exprs a _)) (keeps_expr t _)
  | .show _ sel t, s => by
    rw [expr]; exact keeps_trans (keeps_trans (keeps_exprs sel s) (keeps_buggy t _)) (keeps_expr t _)
  | .contextual id body, s => by rw [expr]; exact (keeps_fn (keeps_expr body _)).1
  | .cond c t els, s => by
    rw [expr]
    exact keeps_trans (keeps_trans (keeps_trans (keeps_expr c s) (keeps_buggy t _)) (keeps_expr t _)) (keeps_elses els _)
  | .while id c b, s => by
    rw [expr]
    have h := keeps_trans (keeps_trans (keeps_expr c { s with loop := some id }) (keeps_buggy b _)) (keeps_expr b _)
    exact ⟨rfl, h.fn, h.panicked⟩
  | .for id c b, s => by
    rw [expr]
    have h := keeps_trans (keeps_trans (keeps_expr c { s with loop := some id }) (keeps_buggy b _)) (keeps_expr b _)
    exact ⟨rfl, h.fn, h.panicked⟩
  | .break _, s => by
    rw [expr]
    split
    · exact keeps_refl s
    · exact ⟨rfl, sameFn_refl _, rfl⟩
  | .continue _, s => by
    rw [expr]
    split
    · exact keeps_refl s
    · exact ⟨rfl, sameFn_refl _, rfl⟩
  | .ret _ _, s => by
    rw [expr, funcReturn]
    cases hf : s.fn with
    | none => exact ⟨rfl, by simp [SameFn, hf], rfl⟩
    | some f => exact ⟨rfl, by rw [hf]; exact ⟨true, rfl, fun _ => rfl⟩, rfl⟩
theorem keeps_exprs : ∀ (es : List Expr) (s : St), Keeps s (exprs es s)
  | [], s => by rw [exprs]; exact keeps_refl s
  | e :: es, s => by rw [exprs]; exact keeps_trans (keeps_expr e s) (keeps_exprs es _)
theorem keeps_elses : ∀ (es : List Expr) (s : St), Keeps s (elses es s)
  | [], s => by rw [elses]; exact keeps_refl s
  | e :: es, s => by rw [elses]; exact keeps_trans (keeps_trans (keeps_buggy e s) (keeps_expr e _)) (keeps_elses es _)
end

/-! ## No return, no late warnings -/

/-- No return is known. -/
def Quiet (s : Late) : Prop := ∀ i, s.info = some i → i.value = false ∧ i.none = false

/-- Nothing is warned about and no return becomes known. -/
def Silent (s t : Late) : Prop := Quiet t ∧ t.diag = s.diag

theorem silent_value {id : Nat} {a b : Bool} {s : Late} (h : Quiet s) : Silent s (value id a b s) := by
  unfold value
  split
  · split
    · exact ⟨h, rfl⟩
    · rename_i i hi
      obtain ⟨h1, h2⟩ := h i hi
      split
      · exact ⟨h, rfl⟩
      · rw [h1, h2]
        exact ⟨h, rfl⟩
  · exact ⟨h, rfl⟩

/-- The function has no return. -/
def NoReturn (s : St) : Prop := ∃ f, s.fn = some f ∧ f.hasReturn = false

theorem noReturn_back {s t : St} (k : Keeps s t) (h : NoReturn t) : NoReturn s := by
  obtain ⟨g, hg, hr⟩ := h
  have := k.fn
  cases hs : s.fn with
  | none =>
    rw [hs] at this
    rw [SameFn] at this
    rw [this] at hg
    cases hg
  | some f =>
    rw [hs] at this
    obtain ⟨r, hr', hi⟩ := this
    rw [hg] at hr'
    cases hr'
    refine ⟨f, hs, ?_⟩
    cases hf : f.hasReturn with
    | false => rfl
    | true => simp only at hr; rw [hr] at hi; exact absurd (hi hf) (by decide)

theorem noReturn_setLoop {s : St} {l : Option Nat} : NoReturn { s with loop := l } ↔ NoReturn s := Iff.rfl

mutual
theorem silent_late : ∀ (e : Expr) (s : St) (t : Late), NoReturn (expr e s) → Quiet t → Silent t (late e t)
  | .lit _ _, s, t, _, h => by rw [late]; exact silent_value h
  | .name, s, t, _, h => by rw [late]; exact ⟨h, rfl⟩
  | .paren e, s, t, hn, h => by rw [late]; rw [expr] at hn; exact silent_late e s t hn h
  | .block es, s, t, hn, h => by
    rw [late]; rw [expr] at hn
    exact silent_lates es s { t with ctx := inner .block t.ctx } hn h
  | .seq es, s, t, hn, h => by rw [late]; rw [expr] at hn; exact silent_lates es s t hn h
  | .coll _ _, s, t, _, h => by rw [late]; exact silent_value h
  | .include _, s, t, _, h => by rw [late]; exact silent_value h
  | .unary e, s, t, hn, h => by rw [late]; rw [expr] at hn; exact silent_late e s { t with ctx := .expr } hn h
  | .binary l r, s, t, hn, h => by
    rw [late]; rw [expr] at hn
    have h1 := silent_late r _ { t with ctx := .expr } hn h
    have h2 := silent_late l s _ (noReturn_back (keeps_expr r _) hn) h1.1
    exact ⟨h2.1, h2.2.trans h1.2⟩
  | .field _, s, t, _, h => by rw [late]; exact ⟨h, rfl⟩
  | .call _ _, s, t, _, h => by rw [late]; exact ⟨h, rfl⟩
  | .closure _ _, s, t, _, h => by rw [late]; exact ⟨h, rfl⟩
  | .letIn _, s, t, _, h => by rw [late]; exact ⟨h, rfl⟩
  | .destruct _, s, t, _, h => by rw [late]; exact ⟨h, rfl⟩
  | .set .., s, t, _, h => by rw [late]; exact silent_value h
  | .show .., s, t, _, h => by rw [late]; exact silent_value h
  | .contextual _ _, s, t, _, h => by rw [late]; exact ⟨h, rfl⟩
  | .cond c a els, s, t, hn, h => by
    rw [late]; rw [expr] at hn
    have h1 := silent_late a _ t (noReturn_back (keeps_elses els _) hn) h
    have h2 := silent_elses els _ { late a t with info := t.info } hn h
    refine ⟨?_, h2.2.trans h1.2⟩
    intro i hi
    have hi' : join (late a t).info (lates els { late a t with info := t.info }).info = some i := hi
    rw [join.eq_def] at hi'
    split at hi'
    · exact h2.1 i hi'
    · rename_i p hp
      split at hi'
      · rename_i j hj
        split at hi'
        · cases hi'; exact h2.1 _ hj
        · cases hi'
          obtain ⟨a1, a2⟩ := h1.1 p hp
          simp [Info.merge, a1, a2]
      · cases hi'; exact h1.1 _ hp
  | .while id c b, s, t, hn, h => by
    rw [late]; rw [expr] at hn
    exact silent_late b _ t (noReturn_setLoop.mp hn) h
  | .for id c b, s, t, hn, h => by
    rw [late]; rw [expr] at hn
    exact silent_late b _ t (noReturn_setLoop.mp hn) h
  | .break _, s, t, _, h => by rw [late]; exact ⟨by intro i hi; cases hi; exact ⟨rfl, rfl⟩, rfl⟩
  | .continue _, s, t, _, h => by rw [late]; exact ⟨by intro i hi; cases hi; exact ⟨rfl, rfl⟩, rfl⟩
  | .ret _ _, s, t, hn, _ => by
    exfalso
    rw [expr, funcReturn] at hn
    obtain ⟨f, hf, hr⟩ := hn
    cases hs : s.fn with
    | none => rw [hs] at hf; simp only [hs] at hf; cases hf
    | some g => rw [hs] at hf; cases hf; cases hr
theorem silent_lates : ∀ (es : List Expr) (s : St) (t : Late), NoReturn (exprs es s) → Quiet t → Silent t (lates es t)
  | [], s, t, _, h => by rw [lates]; exact ⟨h, rfl⟩
  | e :: es, s, t, hn, h => by
    rw [lates]; rw [exprs] at hn
    have h1 := silent_lates es _ t hn h
    have h2 := silent_late e s _ (noReturn_back (keeps_exprs es _) hn) h1.1
    exact ⟨h2.1, h2.2.trans h1.2⟩
theorem silent_elses : ∀ (es : List Expr) (s : St) (t : Late), NoReturn (elses es s) → Quiet t → Silent t (lates es t)
  | [], s, t, _, h => by rw [lates]; exact ⟨h, rfl⟩
  | e :: es, s, t, hn, h => by
    rw [lates]; rw [elses] at hn
    have h1 := silent_elses es _ t hn h
    have h2 := silent_late e _ _ (noReturn_back (keeps_elses es _) hn) h1.1
    exact ⟨h2.1, h2.2.trans h1.2⟩
end

/-! ## All warnings -/

/-- The place of the state. -/
def placeOf (s : St) : Place := ⟨s.loop, s.fn.map (·.id), s.fn.bind (·.parentLoop)⟩

theorem placeOf_keeps {s t : St} (h : Keeps s t) : placeOf t = placeOf s := by
  obtain ⟨h1, h2, _⟩ := h
  rw [placeOf, placeOf, h1]
  cases hs : s.fn with
  | none => rw [hs] at h2; rw [h2]
  | some f =>
    rw [hs] at h2
    obtain ⟨r, h2, _⟩ := h2
    rw [h2]
    rfl

/-- What an expression at a place is warned about for itself. -/
def Emits (q : Place) (x : Expr) : Diag → Prop
  | .badJump id tr => LoopJump x id ∧ q.loop = none ∧ tr = q.fn.bind fun f => q.outer.map fun l => (l, f)
  | .badReturn id => (∃ v, x = .ret id v) ∧ q.fn = none
  | .noEffect id hint => ∃ es, Body x (.block es) ∧ onlyShow false es = true ∧ .noEffect id hint ∈ ruleWarnings true es
  | .discarded id r => ∃ body, FnBody x body ∧ .discarded id r ∈ (late body ⟨none, .block, []⟩).diag

/-- What an expression is warned about. -/
def Emit (p : Place) (e : Expr) (d : Diag) : Prop := ∃ q x, Within true p e q x ∧ Emits q x d

theorem emit_iff (p : Place) (e : Expr) (d : Diag) :
    Emit p e d ↔ Emits p e d ∨ ∃ i c, (true, i, c) ∈ parts e ∧ Emit (enter p i) c d := by
  constructor
  · rintro ⟨q, x, h, he⟩
    cases h with
    | here => exact .inl he
    | part hm hb h =>
      rename_i c b i
      have := hb rfl
      subst this
      exact .inr ⟨i, c, hm, q, x, h, he⟩
  · rintro (h | ⟨i, c, hm, q, x, h, he⟩)
    · exact ⟨p, e, .here p e, h⟩
    · exact ⟨q, x, .part hm (fun h => h) h, he⟩

theorem rule_noEffect (b : Bool) (es : List Expr) (d : Diag) : d ∈ ruleWarnings b es → ∃ id h, d = .noEffect id h := by
  fun_induction ruleWarnings b es with
  | case1 => intro h; cases h
  | case2 _ _ _ _ _ _ ih =>
    intro h
    rcases List.mem_cons.mp h with h | h
    · exact ⟨_, _, h⟩
    · exact ih h
  | case3 _ _ _ _ _ ih =>
    intro h
    rcases List.mem_cons.mp h with h | h
    · exact ⟨_, _, h⟩
    · exact ih h
  | case4 _ _ _ _ _ ih => exact ih

/-- The warnings about a block. -/
def BlockWarned (b : Expr) (d : Diag) : Prop :=
  (∃ id hint, d = .noEffect id hint) ∧ ∃ es, b = .block es ∧ onlyShow false es = true ∧ d ∈ ruleWarnings true es

theorem mem_buggy (e : Expr) (s : St) (d : Diag) : d ∈ (buggyBlock e s).diag ↔ d ∈ s.diag ∨ BlockWarned e d := by
  unfold buggyBlock
  cases hb : blockOf e with
  | none =>
    simp only
    constructor
    · exact .inl
    · rintro (h | ⟨_, es, rfl, _⟩)
      · exact h
      · cases hb
  | some es =>
    have he : e = .block es := by
      cases e <;> simp [blockOf] at hb
      rw [hb]
    subst he
    simp only
    by_cases ho : onlyShow false es = true
    · rw [if_pos ho]
      simp only [List.mem_append]
      constructor
      · rintro (h | h)
        · exact .inl h
        · exact .inr ⟨rule_noEffect _ _ _ h, es, rfl, ho, h⟩
      · rintro (h | ⟨_, es', he, _, h⟩)
        · exact .inl h
        · cases he; exact .inr h
    · rw [if_neg ho]
      constructor
      · exact .inl
      · rintro (h | ⟨_, es', he, ho', _⟩)
        · exact h
        · cases he; exact (ho ho').elim

/-- The late warnings of a body. -/
def BodyWarned (body : Expr) (d : Diag) : Prop :=
  (∃ id r, d = .discarded id r) ∧ d ∈ (late body ⟨none, .block, []⟩).diag

theorem value_diag {id : Nat} {a b : Bool} {s : Late} {d : Diag} (h : d ∈ (value id a b s).diag) :
    d ∈ s.diag ∨ ∃ id r, d = .discarded id r := by
  unfold value at h
  split at h
  · split at h
    · exact .inl h
    · split at h
      · exact .inl h
      · split at h
        · rcases List.mem_append.mp h with h | h
          · exact .inl h
          · exact .inr ⟨_, _, by simpa using h⟩
        · split at h
          · rcases List.mem_append.mp h with h | h
            · exact .inl h
            · exact .inr ⟨_, _, by simpa using h⟩
          · exact .inl h
  · exact .inl h

mutual
theorem late_discarded : ∀ (e : Expr) (s : Late) (d : Diag), d ∈ (late e s).diag → d ∈ s.diag ∨ ∃ id r, d = .discarded id r
  | .lit _ _, s, d, h => by rw [late] at h; exact value_diag h
  | .name, s, d, h => by rw [late] at h; exact .inl h
  | .paren e, s, d, h => by rw [late] at h; exact late_discarded e s d h
  | .block es, s, d, h => by rw [late] at h; exact lates_discarded es { s with ctx := inner .block s.ctx } d h
  | .seq es, s, d, h => by rw [late] at h; exact lates_discarded es s d h
  | .coll _ _, s, d, h => by rw [late] at h; exact value_diag h
  | .include _, s, d, h => by rw [late] at h; exact value_diag h
  | .unary e, s, d, h => by rw [late] at h; exact late_discarded e { s with ctx := .expr } d h
  | .binary l r, s, d, h => by
    rw [late] at h
    rcases late_discarded l _ d h with h | h
    · exact late_discarded r { s with ctx := .expr } d h
    · exact .inr h
  | .field _, s, d, h => by rw [late] at h; exact .inl h
  | .call _ _, s, d, h => by rw [late] at h; exact .inl h
  | .closure _ _, s, d, h => by rw [late] at h; exact .inl h
  | .letIn _, s, d, h => by rw [late] at h; exact .inl h
  | .destruct _, s, d, h => by rw [late] at h; exact .inl h
  | .set .., s, d, h => by rw [late] at h; exact value_diag h
  | .show .., s, d, h => by rw [late] at h; exact value_diag h
  | .contextual _ _, s, d, h => by rw [late] at h; exact .inl h
  | .cond _ t els, s, d, h => by
    rw [late] at h
    rcases lates_discarded els { late t s with info := s.info } d h with h | h
    · exact late_discarded t s d h
    · exact .inr h
  | .while _ _ b, s, d, h => by rw [late] at h; exact late_discarded b s d h
  | .for _ _ b, s, d, h => by rw [late] at h; exact late_discarded b s d h
  | .break _, s, d, h => by rw [late] at h; exact .inl h
  | .continue _, s, d, h => by rw [late] at h; exact .inl h
  | .ret _ _, s, d, h => by rw [late] at h; exact .inl h
theorem lates_discarded : ∀ (es : List Expr) (s : Late) (d : Diag), d ∈ (lates es s).diag → d ∈ s.diag ∨ ∃ id r, d = .discarded id r
  | [], s, d, h => by rw [lates] at h; exact .inl h
  | e :: es, s, d, h => by
    rw [lates] at h
    rcases late_discarded e _ d h with h | h
    · exact lates_discarded es s d h
    · exact .inr h
end

/-- Leaving a function: its late warnings come if and only if there are any. -/
theorem mem_fn {id : Nat} {body : Expr} {s : St} (d : Diag) :
    d ∈ (leaveFn s.fn (lateReturn body (expr body { s with fn := some ⟨id, false, s.loop⟩, loop := none }))).diag ↔
      d ∈ (expr body { s with fn := some ⟨id, false, s.loop⟩, loop := none }).diag ∨ BodyWarned body d := by
  have hk := keeps_expr body { s with fn := some ⟨id, false, s.loop⟩, loop := none }
  have hs := silent_late body { s with fn := some ⟨id, false, s.loop⟩, loop := none } ⟨none, .block, []⟩
  obtain ⟨_, ⟨r, hf, _⟩, _⟩ := hk
  generalize expr body { s with fn := some ⟨id, false, s.loop⟩, loop := none } = t at *
  have hd : ∀ u : St, (∃ f, u.fn = some f) → (leaveFn s.fn u).diag = u.diag := by
    rintro u ⟨f, hf⟩
    simp only [leaveFn, hf]
  cases hr : r with
  | true =>
    subst hr
    have e1 : lateReturn body t = { t with diag := t.diag ++ (late body ⟨none, .block, []⟩).diag } := by
      simp only [lateReturn, hf, if_true]
      rw [late_start]
    rw [e1, hd { t with diag := t.diag ++ (late body ⟨none, .block, []⟩).diag } ⟨_, hf⟩]
    simp only [List.mem_append]
    constructor
    · rintro (h | h)
      · exact .inl h
      · rcases late_discarded _ _ _ h with h' | h'
        · cases h'
        · exact .inr ⟨h', h⟩
    · rintro (h | ⟨_, h⟩)
      · exact .inl h
      · exact .inr h
  | false =>
    subst hr
    have e1 : lateReturn body t = t := by
      simp only [lateReturn, hf]
      rfl
    rw [e1, hd _ ⟨_, hf⟩]
    constructor
    · exact .inl
    · rintro (h | ⟨_, h⟩)
      · exact h
      · rw [(hs ⟨_, hf, rfl⟩ (by intro i hi; cases hi)).2] at h
        cases h

theorem emits_fn {q : Place} {id : Nat} {body : Expr} {d : Diag} :
    Emits q (.closure id body) d ↔ BodyWarned body d := by
  cases d <;> simp [Emits, BodyWarned, LoopJump, Body, FnBody]

theorem emits_ctx {q : Place} {id : Nat} {body : Expr} {d : Diag} :
    Emits q (.contextual id body) d ↔ BodyWarned body d := by
  cases d <;> simp [Emits, BodyWarned, LoopJump, Body, FnBody]

/-- Expressions that are not warned about themselves. -/
def Mute : Expr → Bool
  | .closure .. | .contextual .. | .cond .. | .while .. | .for .. | .show .. | .break .. | .continue .. | .ret .. => false
  | _ => true

theorem emits_mute {q : Place} {x : Expr} {d : Diag} (h : Mute x = true) : ¬ Emits q x d := by
  cases d <;> cases x <;> simp [Mute] at h <;> simp [Emits, LoopJump, Body, FnBody]

theorem emits_while {q : Place} {id : Nat} {c b : Expr} {d : Diag} : Emits q (.while id c b) d ↔ BlockWarned b d := by
  cases d <;> simp [Emits, BlockWarned, LoopJump, Body, FnBody]

theorem emits_for {q : Place} {id : Nat} {c b : Expr} {d : Diag} : Emits q (.for id c b) d ↔ BlockWarned b d := by
  cases d <;> simp [Emits, BlockWarned, LoopJump, Body, FnBody]

theorem emits_show {q : Place} {id : Nat} {sel : List Expr} {t : Expr} {d : Diag} :
    Emits q (.show id sel t) d ↔ BlockWarned t d := by
  cases d <;> simp [Emits, BlockWarned, LoopJump, Body, FnBody]

theorem emits_cond {q : Place} {c t : Expr} {els : List Expr} {d : Diag} :
    Emits q (.cond c t els) d ↔ BlockWarned t d ∨ ∃ e ∈ els, BlockWarned e d := by
  cases d with
  | noEffect id hint =>
    simp only [Emits, Body, BlockWarned]
    constructor
    · rintro ⟨es, hb, h1, h2⟩
      rcases hb with ⟨_, _, hb⟩ | ⟨_, _, _, hb, hm⟩ | ⟨_, _, hb⟩ | ⟨_, _, hb⟩ | ⟨_, _, hb⟩ <;> cases hb
      · exact .inl ⟨⟨_, _, rfl⟩, es, rfl, h1, h2⟩
      · exact .inr ⟨_, hm, ⟨_, _, rfl⟩, es, rfl, h1, h2⟩
    · rintro (⟨_, es, rfl, h1, h2⟩ | ⟨e, hm, _, es, rfl, h1, h2⟩)
      · exact ⟨es, .inl ⟨_, _, rfl⟩, h1, h2⟩
      · exact ⟨es, .inr (.inl ⟨_, _, _, rfl, hm⟩), h1, h2⟩
  | badJump => simp [Emits, BlockWarned, LoopJump]
  | badReturn => simp [Emits, BlockWarned]
  | discarded => simp [Emits, BlockWarned, FnBody]

/-- What is warned about in a list of expressions at one place. -/
def EmitL (p : Place) (es : List Expr) (d : Diag) : Prop := ∃ e ∈ es, Emit p e d

theorem emitL_cons (p : Place) (e : Expr) (es : List Expr) (d : Diag) : EmitL p (e :: es) d ↔ Emit p e d ∨ EmitL p es d := by
  simp [EmitL]

theorem emitL_append (p : Place) (es fs : List Expr) (d : Diag) : EmitL p (es ++ fs) d ↔ EmitL p es d ∨ EmitL p fs d := by
  simp only [EmitL, List.mem_append]
  constructor
  · rintro ⟨e, h | h, he⟩
    · exact .inl ⟨e, h, he⟩
    · exact .inr ⟨e, h, he⟩
  · rintro (⟨e, h, he⟩ | ⟨e, h, he⟩)
    · exact ⟨e, .inl h, he⟩
    · exact ⟨e, .inr h, he⟩

theorem emit_same {p : Place} {e : Expr} {es : List Expr} (h : parts e = es.map fun e => (true, .same, e)) (d : Diag) :
    Emit p e d ↔ Emits p e d ∨ EmitL p es d := by
  rw [emit_iff, h]
  simp only [List.mem_map, Prod.mk.injEq, true_and]
  constructor
  · rintro (h | ⟨i, c, ⟨e', he', rfl, rfl⟩, hm⟩)
    · exact .inl h
    · exact .inr ⟨_, he', hm⟩
  · rintro (h | ⟨e', he', hm⟩)
    · exact .inl h
    · exact .inr ⟨_, _, ⟨e', he', rfl, rfl⟩, hm⟩

theorem emit_mute_same {p : Place} {e : Expr} {es : List Expr} (hm : Mute e = true) (h : parts e = es.map fun e => (true, .same, e))
    (d : Diag) : Emit p e d ↔ EmitL p es d := by
  rw [emit_same h]
  simp [emits_mute hm]

theorem emit_one {p : Place} {e : Expr} {d : Diag} : EmitL p [e] d ↔ Emit p e d := by simp [EmitL]

theorem emit_into {p : Place} {e : Expr} {i : Into} {es : List Expr} (h : parts e = es.map fun c => (true, i, c)) (d : Diag) :
    Emit p e d ↔ Emits p e d ∨ EmitL (enter p i) es d := by
  rw [emit_iff, h]
  simp only [List.mem_map, Prod.mk.injEq, true_and]
  constructor
  · rintro (h | ⟨i, c, ⟨e', he', rfl, rfl⟩, hm⟩)
    · exact .inl h
    · exact .inr ⟨_, he', hm⟩
  · rintro (h | ⟨e', he', hm⟩)
    · exact .inl h
    · exact .inr ⟨_, _, ⟨e', he', rfl, rfl⟩, hm⟩

theorem place_loop (s : St) (id : Nat) : placeOf { s with loop := some id } = enter (placeOf s) (.loop id) := rfl
theorem place_fn (s : St) (id : Nat) :
    placeOf { s with fn := some ⟨id, false, s.loop⟩, loop := none } = enter (placeOf s) (.fn id) := rfl

theorem mem_badBranch (id : Nat) (s : St) (d : Diag) (x : Expr) (hx : LoopJump x id) (hl : s.loop.isSome = false) :
    d ∈ (badBranch id s).diag ↔ d ∈ s.diag ∨ Emits (placeOf s) x d := by
  have hn : s.loop = none := by
    cases h : s.loop with
    | none => rfl
    | some _ => rw [h] at hl; cases hl
  have ht : ((placeOf s).fn.bind fun f => (placeOf s).outer.map fun l => (l, f)) = trace s.fn := by
    cases hf : s.fn <;> simp [placeOf, hf, trace]
  have hn' : (placeOf s).loop = none := hn
  have he : Emits (placeOf s) x d ↔ d = .badJump id (trace s.fn) := by
    cases d with
    | badJump id' tr =>
      simp only [Emits, ht, hn', true_and, Diag.badJump.injEq]
      refine and_congr ?_ Iff.rfl
      rcases hx with rfl | rfl <;> simp [LoopJump, eq_comm]
    | badReturn => rcases hx with rfl | rfl <;> simp [Emits]
    | noEffect => rcases hx with rfl | rfl <;> simp [Emits, Body]
    | discarded => rcases hx with rfl | rfl <;> simp [Emits, FnBody]
  rw [he, badBranch]
  simp only [List.mem_append, List.mem_singleton]

mutual
/-- The warnings are exactly those that expressions which are looked at get for themselves. -/
theorem mem_expr : ∀ (e : Expr) (s : St) (d : Diag), d ∈ (expr e s).diag ↔ d ∈ s.diag ∨ Emit (placeOf s) e d
  | .lit k i, s, d => by rw [expr, emit_mute_same (es := []) rfl rfl]; simp [EmitL]
  | .name, s, d => by rw [expr, emit_mute_same (es := []) rfl rfl]; simp [EmitL]
  | .paren e, s, d => by rw [expr, emit_mute_same (es := [e]) rfl rfl, emit_one]; exact mem_expr e s d
  | .block es, s, d => by rw [expr, emit_mute_same (es := es) rfl rfl]; exact mem_exprs es s d
  | .seq es, s, d => by rw [expr, emit_mute_same (es := es) rfl rfl]; exact mem_exprs es s d
  | .coll _ es, s, d => by rw [expr, emit_mute_same (es := es) rfl rfl]; exact mem_exprs es s d
  | .include _, s, d => by rw [expr, emit_mute_same (es := []) rfl rfl]; simp [EmitL]
  | .unary e, s, d => by rw [expr, emit_mute_same (es := [e]) rfl rfl, emit_one]; exact mem_expr e s d
  | .binary l r, s, d => by
    rw [expr, emit_mute_same (es := [l, r]) rfl rfl, emitL_cons, emit_one, mem_expr r, mem_expr l,
      placeOf_keeps (keeps_expr l s), or_assoc]
  | .field e, s, d => by rw [expr, emit_mute_same (es := [e]) rfl rfl, emit_one]; exact mem_expr e s d
  | .call c as, s, d => by
    rw [expr, emit_iff]
    have : ¬ ∃ i x, (true, i, x) ∈ parts (.call c as) ∧ Emit (enter (placeOf s) i) x d := by
      rintro ⟨i, x, h, _⟩
      simp [parts] at h
    simp [emits_mute (x := .call c as) rfl, this]
  | .closure id body, s, d => by
    rw [expr, emit_into (es := [body]) (i := .fn id) rfl, emit_one, emits_fn]
    rw [mem_fn, mem_expr body, place_fn, or_assoc]
    exact or_congr Iff.rfl Or.comm
  | .letIn es, s, d => by rw [expr, emit_mute_same (es := es) rfl rfl]; exact mem_exprs es s d
  | .destruct e, s, d => by rw [expr, emit_mute_same (es := [e]) rfl rfl, emit_one]; exact mem_expr e s d
  | .set _ c a t, s, d => by
    rw [expr, emit_mute_same (es := c ++ a ++ [t]) rfl rfl, emitL_append, emitL_append, emit_one, mem_expr t, mem_exprs a,
      mem_exprs c, placeOf_keeps (keeps_exprs a _), placeOf_keeps (keeps_exprs c s), or_assoc, or_assoc, or_assoc]
  | .show _ sel t, s, d => by
    rw [expr, emit_same (es := sel ++ [t]) rfl, emitL_append, emit_one, emits_show, mem_expr t, mem_buggy, mem_exprs sel,
      placeOf_keeps (keeps_buggy t _), placeOf_keeps (keeps_exprs sel s)]
    constructor
    · rintro (((h | h) | h) | h)
      · exact .inl h
      · exact .inr (.inr (.inl h))
      · exact .inr (.inl h)
      · exact .inr (.inr (.inr h))
    · rintro (h | h | h | h)
      · exact .inl (.inl (.inl h))
      · exact .inl (.inr h)
      · exact .inl (.inl (.inr h))
      · exact .inr h
  | .contextual id body, s, d => by
    rw [expr, emit_into (es := [body]) (i := .fn id) rfl, emit_one, emits_ctx]
    rw [mem_fn, mem_expr body, place_fn, or_assoc]
    exact or_congr Iff.rfl Or.comm
  | .cond c t els, s, d => by
    rw [expr, emit_same (es := c :: t :: els) rfl, emitL_cons, emitL_cons, emits_cond]
    rw [mem_elses els, mem_expr t, mem_buggy, mem_expr c, placeOf_keeps (keeps_expr t _), placeOf_keeps (keeps_buggy t _),
      placeOf_keeps (keeps_expr c s)]
    constructor
    · rintro ((((h | h) | h) | h) | (h | h))
      · exact .inl h
      · exact .inr (.inr (.inl h))
      · exact .inr (.inl (.inl h))
      · exact .inr (.inr (.inr (.inl h)))
      · exact .inr (.inl (.inr h))
      · exact .inr (.inr (.inr (.inr h)))
    · rintro (h | (h | h) | h | h | h)
      · exact .inl (.inl (.inl (.inl h)))
      · exact .inl (.inl (.inr h))
      · exact .inr (.inl h)
      · exact .inl (.inl (.inl (.inr h)))
      · exact .inl (.inr h)
      · exact .inr (.inr h)
  | .while id c b, s, d => by
    rw [expr, emit_into (es := [c, b]) (i := .loop id) rfl, emitL_cons, emit_one, emits_while]
    show d ∈ (expr b (buggyBlock b (expr c { s with loop := some id }))).diag ↔ _
    rw [mem_expr b, mem_buggy, mem_expr c, placeOf_keeps (keeps_buggy b _), placeOf_keeps (keeps_expr c _), place_loop]
    constructor
    · rintro (((h | h) | h) | h)
      · exact .inl h
      · exact .inr (.inr (.inl h))
      · exact .inr (.inl h)
      · exact .inr (.inr (.inr h))
    · rintro (h | h | h | h)
      · exact .inl (.inl (.inl h))
      · exact .inl (.inr h)
      · exact .inl (.inl (.inr h))
      · exact .inr h
  | .for id c b, s, d => by
    rw [expr, emit_into (es := [c, b]) (i := .loop id) rfl, emitL_cons, emit_one, emits_for]
    show d ∈ (expr b (buggyBlock b (expr c { s with loop := some id }))).diag ↔ _
    rw [mem_expr b, mem_buggy, mem_expr c, placeOf_keeps (keeps_buggy b _), placeOf_keeps (keeps_expr c _), place_loop]
    constructor
    · rintro (((h | h) | h) | h)
      · exact .inl h
      · exact .inr (.inr (.inl h))
      · exact .inr (.inl h)
      · exact .inr (.inr (.inr h))
    · rintro (h | h | h | h)
      · exact .inl (.inl (.inl h))
      · exact .inl (.inr h)
      · exact .inl (.inl (.inr h))
      · exact .inr h
  | .break id, s, d => by
    rw [expr, emit_same (es := []) rfl]
    by_cases hl : s.loop.isSome = true
    · rw [if_pos hl]
      have : ¬ Emits (placeOf s) (.break id) d := by
        cases hs : s.loop with
        | none => rw [hs] at hl; cases hl
        | some l => cases d <;> simp [Emits, LoopJump, Body, FnBody, placeOf, hs]
      simp [this, EmitL]
    · rw [if_neg hl, mem_badBranch id s d _ (.inl rfl) (by simpa using hl)]
      simp [EmitL]
  | .continue id, s, d => by
    rw [expr, emit_same (es := []) rfl]
    by_cases hl : s.loop.isSome = true
    · rw [if_pos hl]
      have : ¬ Emits (placeOf s) (.continue id) d := by
        cases hs : s.loop with
        | none => rw [hs] at hl; cases hl
        | some l => cases d <;> simp [Emits, LoopJump, Body, FnBody, placeOf, hs]
      simp [this, EmitL]
    · rw [if_neg hl, mem_badBranch id s d _ (.inr rfl) (by simpa using hl)]
      simp [EmitL]
  | .ret id v, s, d => by
    rw [expr, emit_iff]
    have : ¬ ∃ i x, (true, i, x) ∈ parts (.ret id v) ∧ Emit (enter (placeOf s) i) x d := by
      rintro ⟨i, x, h, _⟩
      simp [parts] at h
    simp only [this, or_false]
    rw [funcReturn]
    cases hf : s.fn with
    | some f =>
      have : ¬ Emits (placeOf s) (.ret id v) d := by
        cases d <;> simp [Emits, LoopJump, Body, FnBody, placeOf, hf]
      simp [this]
    | none =>
      simp only [List.mem_append, List.mem_singleton]
      apply or_congr Iff.rfl
      cases d <;> simp [Emits, LoopJump, Body, FnBody, placeOf, hf]
      exact eq_comm
theorem mem_exprs : ∀ (es : List Expr) (s : St) (d : Diag), d ∈ (exprs es s).diag ↔ d ∈ s.diag ∨ EmitL (placeOf s) es d
  | [], s, d => by rw [exprs]; simp [EmitL]
  | e :: es, s, d => by rw [exprs, emitL_cons, mem_exprs es, mem_expr e, placeOf_keeps (keeps_expr e s), or_assoc]
theorem mem_elses : ∀ (es : List Expr) (s : St) (d : Diag),
    d ∈ (elses es s).diag ↔ d ∈ s.diag ∨ (∃ e ∈ es, BlockWarned e d) ∨ EmitL (placeOf s) es d
  | [], s, d => by rw [elses]; simp [EmitL]
  | e :: es, s, d => by
    rw [elses, emitL_cons, mem_elses es, mem_expr e, mem_buggy, placeOf_keeps (keeps_expr e _), placeOf_keeps (keeps_buggy e s)]
    simp only [List.mem_cons]
    constructor
    · rintro (((h | h) | h) | ⟨x, hx, h⟩ | h)
      · exact .inl h
      · exact .inr (.inl ⟨e, .inl rfl, h⟩)
      · exact .inr (.inr (.inl h))
      · exact .inr (.inl ⟨x, .inr hx, h⟩)
      · exact .inr (.inr (.inr h))
    · rintro (h | ⟨x, rfl | hx, h⟩ | h | h)
      · exact .inl (.inl (.inl h))
      · exact .inl (.inl (.inr h))
      · exact .inr (.inl ⟨x, hx, h⟩)
      · exact .inl (.inr h)
      · exact .inr (.inr h)
end

end Tinymist.Lint
