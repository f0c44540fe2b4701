import Verif.Lemmas.LintLate
/-! # The linter: theorems -/
namespace Tinymist.Lint

/-! ## C88: jumps -/

theorem mem_lint (file : List Expr) (d : Diag) : d ∈ lint file ↔ ∃ q x, InFile true file q x ∧ Emits q x d := by
  rw [lint, run, mem_exprs]
  simp only [List.not_mem_nil, false_or]
  constructor
  · rintro ⟨e, he, q, x, hw, hm⟩
    exact ⟨q, x, ⟨e, he, hw⟩, hm⟩
  · rintro ⟨q, x, ⟨e, he, hw⟩, hm⟩
    exact ⟨e, he, q, x, hw, hm⟩

/-- C88: a jump is reported if and only if it is looked at and there is no loop around it in its function; with the loop around
this function and the function as the trace, if there are both. -/
theorem jumps_partial (file : List Expr) (id : Nat) (tr : Option (Nat × Nat)) :
    .badJump id tr ∈ lint file ↔
      ∃ q x, InFile true file q x ∧ LoopJump x id ∧ q.loop = none ∧
        ∀ l f, tr = some (l, f) ↔ q.outer = some l ∧ q.fn = some f := by
  rw [mem_lint]
  refine exists_congr fun q => exists_congr fun x => and_congr Iff.rfl (and_congr Iff.rfl (and_congr Iff.rfl ?_))
  constructor
  · rintro rfl l f
    cases hq : q.fn with
    | none => simp
    | some g => cases ho : q.outer <;> simp
  · intro h
    cases tr with
    | some lf =>
      obtain ⟨l, f⟩ := lf
      obtain ⟨h1, h2⟩ := (h l f).mp rfl
      simp [h1, h2]
    | none =>
      cases hq : q.fn with
      | none => rfl
      | some g =>
        cases ho : q.outer with
        | none => rfl
        | some l => exact absurd ((h l g).mpr ⟨ho, hq⟩) (by simp)

/-- C88: a return is reported if and only if it is looked at and there is no function around it. -/
theorem returns_partial (file : List Expr) (id : Nat) :
    .badReturn id ∈ lint file ↔ ∃ q v, InFile true file q (.ret id v) ∧ q.fn = none := by
  rw [mem_lint]
  constructor
  · rintro ⟨q, x, hw, ⟨v, rfl⟩, hf⟩
    exact ⟨q, v, hw, hf⟩
  · rintro ⟨q, v, hw, hf⟩
    exact ⟨q, _, hw, ⟨v, rfl⟩, hf⟩

theorem within_looked {b : Bool} {p q : Place} {e x : Expr} (h : Within true p e q x) : Within b p e q x := by
  induction h with
  | here p e => exact .here p e
  | part hm hb _ ih => exact .part hm (fun _ => hb rfl) ih

/-- C88: what is reported is wrong: no jump and no return that has its loop or its function is reported. -/
theorem no_false_alarm (file : List Expr) (id : Nat) :
    ((∃ tr, .badJump id tr ∈ lint file) → ∃ q x, InFile false file q x ∧ LoopJump x id ∧ q.loop = none) ∧
      (.badReturn id ∈ lint file → ∃ q v, InFile false file q (.ret id v) ∧ q.fn = none) := by
  constructor
  · rintro ⟨tr, h⟩
    obtain ⟨q, x, ⟨e, he, hw⟩, hj, hl, _⟩ := (jumps_partial file id tr).mp h
    exact ⟨q, x, ⟨e, he, within_looked hw⟩, hj, hl⟩
  · intro h
    obtain ⟨q, v, ⟨e, he, hw⟩, hf⟩ := (returns_partial file id).mp h
    exact ⟨q, v, ⟨e, he, within_looked hw⟩, hf⟩

/-- C88: the linter does not panic. -/
theorem never_panics (file : List Expr) : (run file).panicked = false := (keeps_exprs file _).panicked

/-- C88, what is missing: a jump in the arguments of a call, as in `#f({ break })`, is not reported. -/
theorem argument_unseen : ∃ file q x, InFile false file q x ∧ LoopJump x 7 ∧ q.loop = none ∧ lint file = [] :=
  ⟨[.call .name [.block [.break 7]]], top, .break 7,
    ⟨_, .head _, .part (b := false) (i := .same) (c := .block [.break 7]) (by simp [parts]) (by simp)
      (.part (b := true) (i := .same) (c := .break 7) (by simp [parts]) (by simp) (.here _ _))⟩, .inl rfl, rfl, rfl⟩

/-- C88, what is missing: nor is one in the value of a return, as in `return { break }`. -/
theorem returned_unseen : ∃ file q x, InFile false file q x ∧ LoopJump x 7 ∧ q.loop = none ∧ lint file = [] :=
  ⟨[.closure 1 (.ret 2 [.block [.break 7]])], ⟨none, some 1, none⟩, .break 7,
    ⟨_, .head _, .part (b := true) (i := .fn 1) (c := .ret 2 [.block [.break 7]]) (by simp [parts]) (by simp)
      (.part (b := false) (i := .same) (c := .block [.break 7]) (by simp [parts]) (by simp)
        (.part (b := true) (i := .same) (c := .break 7) (by simp [parts]) (by simp) (.here _ _)))⟩, .inl rfl, rfl, rfl⟩

/-- `#for x in y { let f = () => { break } }`. -/
example : lint [.for 1 .name (.block [.letIn [.closure 2 (.block [.break 3])]])] = [.badJump 3 (some (1, 2))] := rfl
/-- `#while c { if c { continue } }`. -/
example : lint [.while 1 .name (.block [.cond .name (.block [.continue 3]) []])] = [] := rfl
/-- `#{ return 1 }`. -/
example : lint [.block [.ret 3 [.lit .value 4]]] = [.badReturn 3] := rfl

/-! ## C89: values before a return -/

/-- C89: of what is said to be thrown away by a return, a value or a rule of a function, a return may follow it in this function;
with a value, or, for a rule, without. -/
theorem discarded_partial (file : List Expr) (id : Nat) (rule : Bool) (h : .discarded id rule ∈ lint file) :
    ∃ q x body y v, InFile true file q x ∧ FnBody x body ∧ Shown y id rule ∧ After y body (.ret v) ∧ (v = true ∨ rule = true) := by
  obtain ⟨q, x, hw, body, hb, hd⟩ := (mem_lint _ _).mp h
  have hr := late_right body ⟨none, .block, []⟩ (fun _ => False) (by intro i hi; cases hi)
  rcases hr.2 _ hd with h' | ⟨id', rule', y, v, he, hs, hv, ⟨_, hf⟩ | ha⟩
  · cases h'
  · exact hf.elim
  · cases he
    exact ⟨q, x, body, y, v, hw, hb, hs, ha, hv⟩

/-- C89: what comes right before a return of a function is said to be thrown away: a value if the return has one, a rule always.
Between them may be anything that is no value to the linter. -/
theorem before_return (file : List Expr) (q : Place) (x y : Expr) (pre mid post : List Expr) (id rid : Nat) (rule : Bool)
    (v : List Expr) (hx : InFile true file q x) (hb : FnBody x (.block (pre ++ y :: mid ++ .ret rid v :: post)))
    (hy : Shown y id rule) (hm : ∀ m ∈ mid, Passed m) (hv : v ≠ [] ∨ rule = true) : .discarded id rule ∈ lint file := by
  refine (mem_lint _ _).mpr ⟨q, x, hx, _, hb, ?_⟩
  rw [late]
  refine lates_warned hy ?_ hv rfl
  intro m hm' s
  have := hm m hm'
  cases m <;> first | exact this.elim | (rw [late]; done) | skip
  rename_i k i
  rw [late, value]
  have : k ≠ .value := this
  split
  · split
    · rfl
    · simp [this]
  · rfl

/-- C89: of several values before a return only the last is reported. -/
theorem reported_once (fn id rid : Nat) (pre v : List Expr) (hp : ∀ e ∈ pre, ∃ i, e = .lit .value i ∨ e = .include i) (hv : v ≠ []) :
    lint [.closure fn (.block (pre ++ [.lit .value id, .ret rid v]))] = [.discarded id false] := by
  have h1 : ∀ s : St, exprs (pre ++ [.lit .value id, .ret rid v]) s = funcReturn rid s := by
    intro s
    induction pre with
    | nil => rfl
    | cons e pre ih =>
      obtain ⟨i, rfl | rfl⟩ := hp e (List.mem_cons_self ..)
      · exact ih fun x hx => hp x (List.mem_cons_of_mem _ hx)
      · exact ih fun x hx => hp x (List.mem_cons_of_mem _ hx)
  have h2 : lates (pre ++ [.lit .value id, .ret rid v]) ⟨none, .block, []⟩ =
      ⟨some ⟨true, false, true⟩, .block, [.discarded id false]⟩ := by
    induction pre with
    | nil =>
      cases v with
      | nil => exact (hv rfl).elim
      | cons a v => rfl
    | cons e pre ih =>
      have ih := ih (fun x hx => hp x (List.mem_cons_of_mem _ hx)) fun s => by
        clear ih
        have hp' : ∀ x ∈ pre, ∃ i, x = .lit .value i ∨ x = .include i := fun x hx => hp x (List.mem_cons_of_mem _ hx)
        clear h1 hp
        induction pre with
        | nil => rfl
        | cons e pre ih =>
          obtain ⟨i, rfl | rfl⟩ := hp' e (List.mem_cons_self ..)
          · exact ih fun x hx => hp' x (List.mem_cons_of_mem _ hx)
          · exact ih fun x hx => hp' x (List.mem_cons_of_mem _ hx)
      rw [List.cons_append, lates, ih]
      obtain ⟨i, rfl | rfl⟩ := hp e (List.mem_cons_self ..) <;> rfl
  show (run _).diag = _
  unfold run
  simp only [exprs, expr, h1, funcReturn, lateReturn, leaveFn, late, inner, h2, if_true]

/-- C89: before a condition both of whose branches return, a value is reported if both return a value, and a rule if both or
none do. -/
theorem before_branches (fn id i j : Nat) (v w : List Expr) :
    lint [.closure fn (.block [.lit .value id, .cond .name (.block [.ret i v]) [.block [.ret j w]]])] =
      (if v ≠ [] ∧ w ≠ [] then [.discarded id false] else []) ∧
    lint [.closure fn (.block [.set id [] [] .name, .cond .name (.block [.ret i v]) [.block [.ret j w]]])] =
      (if v = [] ↔ w = [] then [.discarded id true] else []) := by
  cases v <;> cases w <;> constructor <;> simp <;> rfl

/-- C89: what comes before a jump out of a loop is not reported, whatever follows. -/
theorem before_jump (fn id i j : Nat) (v : List Expr) :
    lint [.closure fn (.block [.while j .name (.block [.lit .value id, .break i]), .ret j v])] = [] ∧
    lint [.closure fn (.block [.while j .name (.block [.lit .value id, .continue i]), .ret j v])] = [] := by
  cases v <;> exact ⟨rfl, rfl⟩

/-- C89, what is missing: a value may be said to be thrown away although it need not be: `() => { [a]; if c { return 1 } }`. -/
theorem sometimes_kept : ∃ y body, ValueAt y 1 ∧ lint [.closure 0 body] = [.discarded 1 false] ∧ After y body .normal :=
  ⟨.lit .value 1, .block [.lit .value 1, .cond .name (.block [.ret 2 [.lit .value 3]]) []], .inl rfl, rfl,
    .block (.next .here (.next (.else .nil) .nil))⟩

/-- C89, what is missing: a rule is said to be thrown away by a return without a value although there is content between them,
which has its style and is kept: `() => { set text(red); [a]; return }`. -/
theorem rule_in_effect : lint [.closure 0 (.block [.set 1 [] [] .name, .lit .value 2, .ret 3 []])] = [.discarded 1 true] := rfl

theorem run_break {es : List Expr} {id : Nat} {f : Flow} (h : Runs (.break id :: es) f) : f = .break := by
  cases h with
  | next h _ => cases h with
    | atom h => exact h.elim
  | stop h _ => cases h with
    | atom h => exact h.elim
    | «break» => rfl

/-- C89, what is missing: a value that is always thrown away need not be reported: `() => { while c { [a]; break }; return 1 }`. -/
theorem discarded_unseen : ∃ y body, ValueAt y 1 ∧ lint [.closure 0 body] = [] ∧ (∃ f, After y body f) ∧
    ∀ f, After y body f → f = .ret true := by
  refine ⟨.lit .value 1, .block [.while 2 .name (.block [.lit .value 1, .break 3]), .ret 4 [.name]], .inl rfl, rfl,
    ⟨.ret true, .block (.next (.whileBreak (.block (.next .here (.stop .break (by simp))))) (.stop (.ret (v := [.name])) (by simp)))⟩,
    ?_⟩
  have hret : ∀ {f}, Runs [.ret 4 [.name]] f → f = .ret true := by
    intro f h
    cases h with
    | next h _ => cases h with
      | atom h => exact h.elim
    | stop h _ => cases h with
      | atom h => exact h.elim
      | ret => rfl
  have hbody : ∀ {f}, After (.lit .value 1) (.block [.lit .value 1, .break 3]) f → f = .break := by
    intro f h
    cases h with
    | block h => cases h with
      | next h hr => exact run_break hr
      | stop h hn => cases h with
        | here => exact (hn rfl).elim
      | later h => cases h with
        | next h _ => cases h
        | stop h _ => cases h
        | later h => cases h
  intro f h
  cases h with
  | block h => cases h with
    | next h hr => exact hret hr
    | stop h hn => cases h with
      | whileNext h hf _ => rw [hbody h] at hf; simp at hf
      | whileBreak h => exact (hn rfl).elim
      | whileRet h => exact absurd (hbody h) (by simp)
    | later h => cases h with
      | next h _ => cases h
      | stop h _ => cases h
      | later h => cases h

/-- `() => { [a]; f(); return 1 }`. -/
example : lint [.closure 0 (.block [.lit .value 1, .call .name [], .ret 2 [.lit .value 3]])] = [.discarded 1 false] := rfl
/-- `() => { if c { [a]; return 1 } else { [b] } }`. -/
example : lint [.closure 0 (.block [.cond .name (.block [.lit .value 1, .ret 2 [.name]]) [.block [.lit .value 3]]])] =
    [.discarded 1 false] := rfl

/-! ## C90: rules without effect -/

theorem isRule_iff (e : Expr) : isRule e = true ↔ ∃ id, RuleAt e id := by
  cases e <;> simp [isRule, RuleAt]

theorem isTrivia_iff (e : Expr) : isTrivia e = true ↔ ∃ id, e = .lit .trivia id := by
  cases e <;> simp [isTrivia]
  rename_i k _
  cases k <;> simp [isTrivia]

theorem isJump_iff (e : Expr) : isJump e = true ↔ ∃ id, LoopJump e id := by
  cases e <;> simp [isJump, LoopJump]

theorem onlyShow_iff (es : List Expr) : ∀ has : Bool, onlyShow has es = true ↔
    ∃ rules rest, es = rules ++ rest ∧ (∀ x ∈ rules, (∃ id, RuleAt x id) ∨ ∃ id, x = .lit .trivia id) ∧
      (has = true ∨ ∃ x ∈ rules, ∃ id, RuleAt x id) ∧ (rest = [] ∨ ∃ j more id, rest = j :: more ∧ LoopJump j id) := by
  induction es with
  | nil =>
    intro has
    rw [onlyShow]
    constructor
    · intro h
      exact ⟨[], [], rfl, by simp, .inl h, .inl rfl⟩
    · rintro ⟨rules, rest, he, _, h, _⟩
      have : rules = [] := by
        cases rules with
        | nil => rfl
        | cons => cases he
      subst this
      rcases h with h | ⟨x, hx, _⟩
      · exact h
      · cases hx
  | cons e es ih =>
    intro has
    rw [onlyShow]
    by_cases h1 : isRule e = true
    · rw [if_pos h1, ih]
      obtain ⟨id, hr⟩ := (isRule_iff e).mp h1
      constructor
      · rintro ⟨rules, rest, rfl, ha, _, hl⟩
        refine ⟨e :: rules, rest, rfl, ?_, .inr ⟨e, .head _, id, hr⟩, hl⟩
        intro x hx
        rcases List.mem_cons.mp hx with rfl | hx
        · exact .inl ⟨id, hr⟩
        · exact ha x hx
      · rintro ⟨rules, rest, he, ha, _, hl⟩
        cases rules with
        | nil =>
          rcases hl with rfl | ⟨j, more, id', rfl, hj⟩
          · cases he
          · cases he
            rcases hj with rfl | rfl <;> simp [isRule] at h1
        | cons r rules =>
          cases he
          exact ⟨rules, rest, rfl, fun x hx => ha x (.tail _ hx), .inl rfl, hl⟩
    · rw [if_neg h1]
      have hnr : ¬ ∃ id, RuleAt e id := fun h => h1 ((isRule_iff e).mpr h)
      by_cases h2 : isJump e = true
      · rw [if_pos h2]
        obtain ⟨id, hj⟩ := (isJump_iff e).mp h2
        constructor
        · intro h
          exact ⟨[], e :: es, rfl, by simp, .inl h, .inr ⟨e, es, id, rfl, hj⟩⟩
        · rintro ⟨rules, rest, he, ha, h, hl⟩
          cases rules with
          | nil =>
            rcases h with h | ⟨x, hx, _⟩
            · exact h
            · cases hx
          | cons r rules =>
            cases he
            rcases ha e (.head _) with h' | ⟨id', rfl⟩
            · exact (hnr h').elim
            · cases h2
      · rw [if_neg h2]
        by_cases h3 : isTrivia e = true
        · rw [if_pos h3, ih]
          constructor
          · rintro ⟨rules, rest, rfl, ha, h, hl⟩
            refine ⟨e :: rules, rest, rfl, ?_, h.imp id (fun ⟨x, hx, h⟩ => ⟨x, .tail _ hx, h⟩), hl⟩
            intro x hx
            rcases List.mem_cons.mp hx with rfl | hx
            · exact .inr ((isTrivia_iff _).mp h3)
            · exact ha x hx
          · rintro ⟨rules, rest, he, ha, h, hl⟩
            cases rules with
            | nil =>
              rcases hl with rfl | ⟨j, more, id', rfl, hj⟩
              · cases he
              · cases he
                exact (h2 ((isJump_iff e).mpr ⟨id', hj⟩)).elim
            | cons r rules =>
              cases he
              refine ⟨rules, rest, rfl, fun x hx => ha x (.tail _ hx), h.imp id ?_, hl⟩
              rintro ⟨x, hx, hr⟩
              rcases List.mem_cons.mp hx with rfl | hx
              · exact (hnr hr).elim
              · exact ⟨x, hx, hr⟩
        · rw [if_neg h3]
          constructor
          · intro h; cases h
          · rintro ⟨rules, rest, he, ha, h, hl⟩
            exfalso
            cases rules with
            | nil =>
              rcases hl with rfl | ⟨j, more, id', rfl, hj⟩
              · cases he
              · cases he
                exact h2 ((isJump_iff e).mpr ⟨id', hj⟩)
            | cons r rules =>
              cases he
              rcases ha e (.head _) with h' | h'
              · exact hnr h'
              · exact h3 ((isTrivia_iff e).mpr h')

theorem rule_split {first : Bool} {e : Expr} {es : List Expr} {id : Nat} {hint : Bool} {id' : Nat} (hr : RuleAt e id')
    (ih : ∀ first, .noEffect id hint ∈ ruleWarnings first es ↔ ∃ pre x post, es = pre ++ x :: post ∧ RuleAt x id ∧
      (hint = true ↔ first = true ∧ ∀ r ∈ pre, ¬ ∃ i, RuleAt r i)) :
    .noEffect id hint ∈ .noEffect id' first :: ruleWarnings false es ↔ ∃ pre x post, e :: es = pre ++ x :: post ∧ RuleAt x id ∧
      (hint = true ↔ first = true ∧ ∀ r ∈ pre, ¬ ∃ i, RuleAt r i) := by
  rw [List.mem_cons, ih]
  constructor
  · rintro (h | ⟨pre, x, post, rfl, hx, hh⟩)
    · cases h
      exact ⟨[], e, es, rfl, hr, by simp⟩
    · refine ⟨e :: pre, x, post, rfl, hx, ?_⟩
      constructor
      · intro h
        exact absurd (hh.mp h).1 (by simp)
      · rintro ⟨_, h⟩
        exact (h e (.head _) ⟨_, hr⟩).elim
  · rintro ⟨pre, x, post, he, hx, hh⟩
    cases pre with
    | nil =>
      cases he
      have : id = id' := by
        rcases hx with ⟨_, _, _, rfl⟩ | ⟨_, _, rfl⟩ <;> rcases hr with ⟨_, _, _, h⟩ | ⟨_, _, h⟩ <;> cases h <;> rfl
      subst this
      refine .inl ?_
      have : hint = first := by
        cases hint <;> cases first <;> simp at hh ⊢
      rw [this]
    | cons p pre =>
      cases he
      refine .inr ⟨pre, x, post, rfl, hx, ?_⟩
      constructor
      · intro h
        exact ((hh.mp h).2 e (.head _) ⟨_, hr⟩).elim
      · rintro ⟨h, _⟩
        cases h

theorem mem_ruleWarnings (es : List Expr) (id : Nat) (hint : Bool) : ∀ first : Bool,
    .noEffect id hint ∈ ruleWarnings first es ↔ ∃ pre x post, es = pre ++ x :: post ∧ RuleAt x id ∧
      (hint = true ↔ first = true ∧ ∀ r ∈ pre, ¬ ∃ i, RuleAt r i) := by
  induction es with
  | nil =>
    intro first
    rw [ruleWarnings]
    constructor
    · intro h; cases h
    · rintro ⟨pre, x, post, he, _⟩
      cases pre <;> cases he
  | cons e es ih =>
    intro first
    by_cases hr : ∃ i, RuleAt e i
    · obtain ⟨i, hr⟩ := hr
      have hr' := hr
      rcases hr' with ⟨c, a, t, rfl⟩ | ⟨sel, t, rfl⟩ <;> rw [ruleWarnings] <;> exact rule_split hr ih
    · have hn : ruleWarnings first (e :: es) = ruleWarnings first es := by
        rw [ruleWarnings]
        · rintro i c a t rfl; exact hr ⟨i, .inl ⟨c, a, t, rfl⟩⟩
        · rintro i s t rfl; exact hr ⟨i, .inr ⟨s, t, rfl⟩⟩
      rw [hn, ih]
      constructor
      · rintro ⟨pre, x, post, rfl, hx, hh⟩
        refine ⟨e :: pre, x, post, rfl, hx, ?_⟩
        simp only [List.mem_cons, forall_eq_or_imp]
        rw [hh]
        simp [hr]
      · rintro ⟨pre, x, post, he, hx, hh⟩
        cases pre with
        | nil => cases he; exact (hr ⟨id, hx⟩).elim
        | cons p pre =>
          cases he
          refine ⟨pre, x, post, rfl, hx, ?_⟩
          rw [hh]
          simp [not_exists.mp hr]

/-- C90: a rule is said to have no effect if and only if it is in the body of a condition or of a loop, or in the transformation of
a show rule, and this is a block that has nothing but rules and spaces, up to its end or to a jump. The first rule of the block, and
no other one, has a hint. -/
theorem no_effect (file : List Expr) (id : Nat) (hint : Bool) :
    .noEffect id hint ∈ lint file ↔
      ∃ q x pre r post, InFile true file q x ∧ Body x (.block (pre ++ r :: post)) ∧ OnlyRules (pre ++ r :: post) ∧ RuleAt r id ∧
        (hint = true ↔ ∀ r' ∈ pre, ¬ ∃ i, RuleAt r' i) := by
  rw [mem_lint]
  constructor
  · rintro ⟨q, x, hx, es, hb, ho, hm⟩
    obtain ⟨pre, r, post, rfl, hr, hh⟩ := (mem_ruleWarnings _ _ _ _).mp hm
    obtain ⟨rules, rest, h1, h2, h3, h4⟩ := (onlyShow_iff _ _).mp ho
    refine ⟨q, x, pre, r, post, hx, hb, ⟨rules, rest, h1, h2, ?_, h4⟩, hr, by simpa using hh⟩
    rcases h3 with h3 | h3
    · cases h3
    · exact h3
  · rintro ⟨q, x, pre, r, post, hx, hb, ⟨rules, rest, h1, h2, h3, h4⟩, hr, hh⟩
    exact ⟨q, x, hx, _, hb, (onlyShow_iff _ _).mpr ⟨rules, rest, h1, h2, .inr h3, h4⟩,
      (mem_ruleWarnings _ _ _ _).mpr ⟨pre, r, post, rfl, hr, by simpa using hh⟩⟩

/-- `#if c { set text(red); show strong: emph }` and `#if c { set text(red); [a] }`. -/
example : lint [.cond .name (.block [.set 1 [] [] .name, .lit .trivia 2, .show 3 [.name] .name]) []] =
    [.noEffect 1 true, .noEffect 3 false] := rfl
example : lint [.cond .name (.block [.set 1 [] [] .name, .lit .value 2]) []] = [] := rfl
/-- `#while c { set text(red); break }`. -/
example : lint [.while 0 .name (.block [.set 1 [] [] .name, .break 2])] = [.noEffect 1 true] := rfl

end Tinymist.Lint
