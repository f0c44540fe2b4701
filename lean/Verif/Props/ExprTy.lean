import Verif.Spec.ExprTy

/-!
# C144: the type of an expression describes its value
-/

namespace Tinymist.ExprTy

/-! ## Joins -/

theorem joined_none (v : Val) : joined v .none = some v := by cases v <;> rfl

theorem quiet_none {ρ : Nat → Val} {e : Exp} (h : Quiet e) {v : Val} (he : eval ρ e = some v) : v = .none := by
  cases e with
  | none => rw [eval] at he; cases he; rfl
  | bind e =>
    rw [eval, Option.map_eq_some_iff] at he
    obtain ⟨_, _, rfl⟩ := he
    rfl
  | _ => exact h.elim

theorem quiet_type {e : Exp} (h : Quiet e) : check e = .none := by
  cases e with
  | none => rw [check]
  | bind e => rw [check]
  | _ => exact h.elim

theorem foldl_quiet (j : Joiner) : ∀ es : List Exp, (∀ e ∈ es, Quiet e) → (checkAll es).foldl Joiner.join j = j
  | [], _ => by rw [checkAll]; rfl
  | e :: es, h => by
    rw [checkAll, List.foldl_cons, quiet_type (h e (List.mem_cons_self ..))]
    rw [show j.join .none = j by rw [Joiner.join]]
    exact foldl_quiet j es fun x hx => h x (List.mem_cons_of_mem _ hx)

theorem evalCode_quiet {ρ : Nat → Val} : ∀ (es : List Exp) {acc v : Val}, (∀ e ∈ es, Quiet e) →
    evalCode ρ acc es = some v → v = acc
  | [], acc, v, _, h => by rw [evalCode] at h; cases h; rfl
  | e :: es, acc, v, hq, h => by
    rw [evalCode] at h
    cases he : eval ρ e with
    | none => rw [he] at h; cases h
    | some u =>
      rw [he, quiet_none (hq e (List.mem_cons_self ..)) he] at h
      simp only [joined_none] at h
      exact evalCode_quiet es (fun x hx => hq x (List.mem_cons_of_mem _ hx)) h

theorem checkAll_append (a b : List Exp) : checkAll (a ++ b) = checkAll a ++ checkAll b := by
  induction a with
  | nil => rw [checkAll]; rfl
  | cons e a ih => rw [List.cons_append, checkAll, checkAll, ih]; rfl

theorem evalCode_append {ρ : Nat → Val} (a b : List Exp) (acc : Val) :
    evalCode ρ acc (a ++ b) = (evalCode ρ acc a).bind fun v => evalCode ρ v b := by
  induction a generalizing acc with
  | nil => rw [List.nil_append, evalCode]; rfl
  | cons e a ih =>
    rw [List.cons_append, evalCode, evalCode]
    cases eval ρ e with
    | none => rfl
    | some v =>
      simp only
      cases joined acc v with
      | none => rfl
      | some u => exact ih u

/-- What is known while the parts of a block are joined that have no variables. -/
def Known (ρ : Nat → Val) (t : Ty) (v : Val) : Prop := Has ρ t v ∧ t ≠ .any

theorem join_step {ρ : Nat → Val} {j : Joiner} {t : Ty} {acc v u : Val} (hk : Known ρ j.definite acc) (ht : Has ρ t v)
    (hany : t ≠ .any) (hsp : t ≠ .space) (hvar : ∀ x, t ≠ .var x) (hj : joined acc v = some u) :
    Known ρ (j.join t).definite u ∧ (j.join t).possibles = j.possibles := by
  have hnone : j.definite = .none → acc = .none := by
    intro h
    have := hk.1
    rw [h, Has] at this
    exact this
  unfold Joiner.join
  split
  · exact (hsp rfl).elim
  · rw [Has] at ht
    rw [ht, joined_none] at hj
    cases hj
    exact ⟨hk, rfl⟩
  · exact (hany rfl).elim
  · rename_i h; exact (hk.2 h).elim
  · exact (hvar _ rfl).elim
  · rename_i h _ _ _ _
    refine ⟨⟨?_, hany⟩, rfl⟩
    rw [hnone (by assumption)] at hj
    rw [show joined .none v = some v from rfl] at hj
    cases hj
    exact ht
  · exact ⟨⟨by rw [Has]; trivial, by simp⟩, rfl⟩

/-- The variables among the parts. -/
def vars (es : List Exp) : List Nat := es.filterMap fun e => match e with
  | .var x => some x
  | _ => none

/-- The variable of a type. -/
def varOf : Ty → List Ty
  | .var x => [.var x]
  | _ => []

theorem join_possibles (j : Joiner) (hd : j.definite ≠ .any) {t : Ty} (hany : t ≠ .any) :
    (j.join t).definite ≠ .any ∧ (j.join t).possibles = j.possibles ++ varOf t := by
  unfold Joiner.join
  split
  · simp [hd, varOf]
  · simp [hd, varOf]
  · exact (hany rfl).elim
  · rename_i h; exact (hd h).elim
  · exact ⟨hd, rfl⟩
  · rename_i hv _
    refine ⟨hany, ?_⟩
    rw [varOf]
    · simp
    · exact hv
  · rename_i hv _ _
    refine ⟨by simp, ?_⟩
    rw [varOf]
    · simp
    · exact hv

theorem vars_cons (e : Exp) (es : List Exp) :
    vars (e :: es) = (match e with | .var x => [x] | _ => []) ++ vars es := by
  unfold vars
  cases e <;> rfl

theorem fold_possibles : ∀ (es : List Exp) (j : Joiner), j.definite ≠ .any →
    (∀ e ∈ es, check e ≠ .any ∧ ∀ x, check e = .var x → e = .var x) →
    ((checkAll es).foldl Joiner.join j).possibles = j.possibles ++ (vars es).map .var
  | [], j, _, _ => by rw [checkAll]; simp [vars]
  | e :: es, j, hd, h => by
    obtain ⟨h1, h2⟩ := h e (List.mem_cons_self ..)
    obtain ⟨h3, h4⟩ := join_possibles j hd h1
    rw [checkAll, List.foldl_cons, fold_possibles es _ h3 (fun x hx => h x (List.mem_cons_of_mem _ hx)), h4, vars_cons,
      List.map_append, List.append_assoc]
    congr 1
    congr 1
    cases hc : check e with
    | var x => rw [h2 x hc]; rfl
    | _ =>
      rw [varOf]
      rotate_left
      · intro x hx; cases hx
      cases e with
      | var x => rw [check] at hc; cases hc
      | _ => rfl

theorem vars_mem {es : List Exp} {x : Nat} : x ∈ vars es ↔ .var x ∈ es := by
  unfold vars
  rw [List.mem_filterMap]
  constructor
  · rintro ⟨e, he, h⟩
    cases e with
    | var y => cases h; exact he
    | _ => cases h
  · intro h
    exact ⟨_, h, rfl⟩

theorem fine_not_space {e : Exp} (h : Fine e) : check e ≠ .space := by
  cases h with
  | code hf hk _ =>
    intro hc
    rw [check] at hc
    exact joinAll_space _ Joiner.start (by simp [Joiner.start]) hc
  | only hq =>
    rename_i pre x post
    intro hc
    rw [check] at hc
    exact joinAll_space _ Joiner.start (by simp [Joiner.start]) hc
  | markup _ _ =>
    intro hc
    rw [check] at hc
    exact joinAll_space _ Joiner.start (by simp [Joiner.start]) hc
  | _ => rw [check]; simp
where
  joinAll_space (es : List Exp) (j : Joiner) (hj : j.definite ≠ .space ∧ ∀ t ∈ j.possibles, t ≠ .space) :
      ((checkAll es).foldl Joiner.join j).finalize ≠ .space := by
    induction es generalizing j with
    | nil =>
      rw [checkAll, List.foldl_nil]
      unfold Joiner.finalize
      split
      · exact hj.1
      · rename_i t h; exact hj.2 t (by rw [h]; exact List.mem_cons_self ..)
      · simp
    | cons e es ih =>
      rw [checkAll, List.foldl_cons]
      apply ih
      unfold Joiner.join
      split
      · exact hj
      · exact hj
      · exact hj
      · exact hj
      · refine ⟨hj.1, fun t ht => ?_⟩
        rcases List.mem_append.1 ht with h | h
        · exact hj.2 t h
        · cases List.mem_singleton.1 h; simp
      · rename_i hns _ _ _
        exact ⟨fun h => hns h, hj.2⟩
      · exact ⟨by simp, hj.2⟩

theorem fold_known {ρ : Nat → Val} : ∀ (es : List Exp) (j : Joiner) (acc v : Val), Known ρ j.definite acc → j.possibles = [] →
    (∀ e ∈ es, Fine e ∧ check e ≠ .any ∧ ∀ x, check e ≠ .var x) →
    (∀ e ∈ es, ∀ u, eval ρ e = some u → Has ρ (check e) u) → evalCode ρ acc es = some v →
    Has ρ ((checkAll es).foldl Joiner.join j).finalize v
  | [], j, acc, v, hk, hp, _, _, he => by
    rw [evalCode] at he
    cases he
    rw [checkAll, List.foldl_nil, Joiner.finalize, hp]
    exact hk.1
  | e :: es, j, acc, v, hk, hp, hf, hh, he => by
    rw [evalCode] at he
    cases hv : eval ρ e with
    | none => rw [hv] at he; cases he
    | some u =>
      rw [hv] at he
      simp only at he
      cases hj : joined acc u with
      | none => rw [hj] at he; cases he
      | some acc' =>
        rw [hj] at he
        obtain ⟨f1, f2, f3⟩ := hf e (List.mem_cons_self ..)
        obtain ⟨h1, h2⟩ := join_step (j := j) hk (hh e (List.mem_cons_self ..) u hv) f2 (fine_not_space f1) f3 hj
        rw [checkAll, List.foldl_cons]
        exact fold_known es _ acc' v h1 (by rw [h2, hp]) (fun x hx => hf x (List.mem_cons_of_mem _ hx))
          (fun x hx => hh x (List.mem_cons_of_mem _ hx)) he

theorem markup_type : ∀ (es : List Exp) (j : Joiner), j.possibles = [] → (j.definite = .none ∨ j.definite = .content ∨ j.definite = .undef) →
    (∀ e ∈ es, e = .text ∨ e = .space) → (j.definite = .none → .text ∈ es) →
    ((checkAll es).foldl Joiner.join j).finalize = .content ∨ ((checkAll es).foldl Joiner.join j).finalize = .undef
  | [], j, hp, hd, _, ht => by
    rw [checkAll, List.foldl_nil, Joiner.finalize, hp]
    simp only
    rcases hd with h | h | h
    · cases ht h
    · exact Or.inl h
    · exact Or.inr h
  | e :: es, j, hp, hd, he, ht => by
    rw [checkAll, List.foldl_cons]
    have hes : ∀ x ∈ es, x = .text ∨ x = .space := fun x hx => he x (List.mem_cons_of_mem _ hx)
    rcases he e (List.mem_cons_self ..) with rfl | rfl
    · rw [check]
      rcases hd with h | h | h
      · exact markup_type es _ (by simp [Joiner.join, h, hp]) (by simp [Joiner.join, h]) hes (by simp [Joiner.join, h])
      · exact markup_type es _ (by simp [Joiner.join, h, hp]) (by simp [Joiner.join, h]) hes (by simp [Joiner.join, h])
      · exact markup_type es _ (by simp [Joiner.join, h, hp]) (by simp [Joiner.join, h]) hes (by simp [Joiner.join, h])
    · rw [check]
      rw [show j.join .space = j by rw [Joiner.join]]
      exact markup_type es j hp hd hes fun h => (List.mem_cons.1 (ht h)).resolve_left (by simp)

theorem evalMarkup_content {ρ : Nat → Val} : ∀ (es : List Exp) {v : Val}, evalMarkup ρ es = some v → v = .content
  | [], v, h => by rw [evalMarkup] at h; cases h; rfl
  | e :: es, v, h => by
    rw [evalMarkup] at h
    cases he : eval ρ e with
    | none => rw [he] at h; cases h
    | some u => rw [he] at h; exact evalMarkup_content es h

theorem first_var : ∀ {es : List Exp}, vars es ≠ [] → ∃ pre x post, es = pre ++ [.var x] ++ post ∧ vars pre = []
  | [], h => (h rfl).elim
  | e :: es, h => by
    by_cases he : ∃ x, e = .var x
    · obtain ⟨x, rfl⟩ := he
      exact ⟨[], x, es, rfl, rfl⟩
    · have hv : vars (e :: es) = vars es := by
        rw [vars_cons]
        cases e with
        | var x => exact (he ⟨x, rfl⟩).elim
        | _ => rfl
      rw [hv] at h
      obtain ⟨pre, x, post, h1, h2⟩ := first_var h
      refine ⟨e :: pre, x, post, by rw [h1]; rfl, ?_⟩
      rw [vars_cons, h2]
      cases e with
      | var x => exact (he ⟨x, rfl⟩).elim
      | _ => rfl

/-- **C144**, in part: the type of an expression is one of its value, whatever the values of variables are. Missing: what `Fine`
leaves out, for which see the theorems below. -/
theorem type_describes_partial {ρ : Nat → Val} {e : Exp} (hf : Fine e) : ∀ v, eval ρ e = some v → Has ρ (check e) v := by
  induction hf with
  | none => intro v h; rw [eval] at h; cases h; rw [check, Has]
  | auto => intro v h; rw [eval] at h; cases h; rw [check, Has]
  | bool b => intro v h; rw [eval] at h; cases h; rw [check, Has]
  | int n => intro v h; rw [eval] at h; cases h; rw [check, Has]
  | str s => intro v h; rw [eval] at h; cases h; rw [check, Has]
  | text => intro v h; rw [eval] at h; cases h; rw [check, Has]
  | var x => intro v h; rw [eval] at h; cases h; rw [check, Has]
  | @arr items hs hf ih =>
    intro v h
    rw [eval, Option.map_eq_some_iff] at h
    obtain ⟨vs, hv, rfl⟩ := h
    rw [check, Has]
    refine ⟨vs, rfl, ?_⟩
    clear hf
    induction items generalizing vs with
    | nil => rw [evalItems] at hv; cases hv; rw [checkItems, HasAll]
    | cons i items ih2 =>
      obtain ⟨sp, e⟩ := i
      have hsp : sp = false := hs (sp, e) (List.mem_cons_self ..)
      subst hsp
      rw [evalItems] at hv
      cases he : eval ρ e with
      | none => rw [he] at hv; cases hv
      | some u =>
        cases hr : evalItems ρ items with
        | none => rw [he, hr] at hv; cases hv
        | some us =>
          rw [he, hr] at hv
          simp only [Bool.false_eq_true, if_false, Option.some.injEq] at hv
          rw [checkItems, HasAll]
          exact ⟨u, us, hv.symm, ih (false, e) (List.mem_cons_self ..) u he,
            ih2 (fun x hx => hs x (List.mem_cons_of_mem _ hx)) (fun x hx => ih x (List.mem_cons_of_mem _ hx)) us hr⟩
  | @dict fields hf ih =>
    intro v h
    rw [eval, Option.map_eq_some_iff] at h
    obtain ⟨vs, hv, rfl⟩ := h
    rw [check, Has]
    refine ⟨vs, rfl, ?_⟩
    clear hf
    induction fields generalizing vs with
    | nil => rw [evalFields] at hv; cases hv; rw [checkFields, HasFields]
    | cons f fields ih2 =>
      obtain ⟨k, e⟩ := f
      rw [evalFields] at hv
      cases he : eval ρ e with
      | none => rw [he] at hv; cases hv
      | some u =>
        cases hr : evalFields ρ fields with
        | none => rw [he, hr] at hv; cases hv
        | some us =>
          rw [he, hr] at hv
          simp only [Option.some.injEq] at hv
          rw [checkFields, HasFields]
          exact ⟨u, us, hv.symm, ih (k, e) (List.mem_cons_self ..) u he,
            ih2 (fun x hx => ih x (List.mem_cons_of_mem _ hx)) us hr⟩
  | @code es hf hk hv ih =>
    intro v h
    rw [eval] at h
    rw [check, joinAll]
    by_cases hvars : vars es = []
    · refine fold_known es Joiner.start .none v ⟨rfl, by simp [Joiner.start]⟩ rfl (fun e he => ⟨hf e he, (hk e he).1, ?_⟩) ih h
      intro x hx
      have := vars_mem.2 ((hk e he).2 x hx ▸ he)
      rw [hvars] at this
      cases this
    · obtain ⟨pre, x, post, h1, h2⟩ := first_var hvars
      obtain ⟨y, hy⟩ := hv pre x post h1 (fun y hy => by
        have := vars_mem.2 hy
        rw [h2] at this
        cases this)
      have hp := fold_possibles es Joiner.start (by simp [Joiner.start]) hk
      have hlen : 2 ≤ (vars es).length := by
        have : vars es = vars pre ++ [x] ++ vars post := by
          rw [h1]; unfold vars; rw [List.filterMap_append, List.filterMap_append]; rfl
        rw [this]
        have := List.length_pos_of_mem (vars_mem.2 hy)
        simp only [List.length_append, List.length_cons, List.length_nil]
        omega
      rw [show Joiner.start.possibles = [] from rfl, List.nil_append] at hp
      rw [Joiner.finalize, hp]
      match hvs : vars es with
      | [] => exact (hvars hvs).elim
      | [a] => rw [hvs] at hlen; simp at hlen
      | a :: b :: rest => simp only [List.map_cons]; rw [Has]; trivial
  | @only pre x post hq =>
    intro v h
    rw [eval, evalCode_append, evalCode_append] at h
    rw [check, joinAll, checkAll_append, checkAll_append, List.foldl_append, List.foldl_append,
      foldl_quiet _ pre (fun e he => hq e (List.mem_append_left _ he)),
      foldl_quiet _ post (fun e he => hq e (List.mem_append_right _ he))]
    have e1 : checkAll [Exp.var x] = [.var x] := by rw [checkAll, checkAll, check]
    rw [e1, List.foldl_cons, List.foldl_nil]
    have e2 : (Joiner.start.join (.var x)).finalize = .var x := by
      simp [Joiner.start, Joiner.join, Joiner.finalize]
    rw [e2, Has]
    cases hp : evalCode ρ .none pre with
    | none => rw [hp] at h; cases h
    | some u =>
      have := evalCode_quiet pre (fun e he => hq e (List.mem_append_left _ he)) hp
      subst this
      rw [hp] at h
      simp only [Option.bind_some, evalCode, eval, joined] at h
      exact evalCode_quiet post (fun e he => hq e (List.mem_append_right _ he)) h
  | @markup es he ht =>
    intro v h
    rw [eval] at h
    rw [check, joinAll, evalMarkup_content es h]
    rcases markup_type es Joiner.start rfl (Or.inl rfl) he (fun _ => ht) with h | h
    · rw [h, Has]
    · rw [h, Has]; trivial
  | @cond c t e _ _ ih1 ih2 =>
    intro v h
    rw [eval] at h
    rw [check, Has]
    split at h
    · exact Or.inl (ih1 v h)
    · exact Or.inr (ih2 v h)
    · cases h
  | loop r => intro v _; rw [check, Has]; trivial
  | bind e =>
    intro v h
    rw [eval, Option.map_eq_some_iff] at h
    obtain ⟨_, _, rfl⟩ := h
    rw [check, Has]

/-! ## What is missing -/

/-- **C144**, negated in part: a block of nothing but a loop has the type of nothing, whatever the loop gives. -/
theorem loop_type_lost (ρ : Nat → Val) (r : Val) : check (.code [.loop r]) = .none ∧ eval ρ (.code [.loop r]) = some r ∧
    (Has ρ (check (.code [.loop r])) r → r = .none) := by
  have e : check (.code [.loop r]) = .none := by
    simp [check, checkAll, joinAll, Joiner.start, Joiner.join, Joiner.finalize]
  refine ⟨e, ?_, ?_⟩
  · rw [eval, evalCode, eval]; simp only [joined]; rw [evalCode]
  · rw [e, Has]; exact id

/-- **C144**, negated in part: what a loop adds to a block is not in its type: `{ "a"; for x in y { x } }` has the type `"a"`. -/
theorem loop_addition_lost (ρ : Nat → Val) (s r : Text) : eval ρ (.code [.str s, .loop (.str r)]) = some (.str (s ++ r)) ∧
    (Has ρ (check (.code [.str s, .loop (.str r)])) (.str (s ++ r)) → r = []) := by
  have e : check (.code [.str s, .loop (.str r)]) = .value (.str s) := by
    simp [check, checkAll, joinAll, Joiner.start, Joiner.join, Joiner.finalize]
  refine ⟨?_, ?_⟩
  · simp [eval, evalCode, joined]
  · rw [e, Has]
    intro h
    simpa using h

/-- **C144**, negated in part: a block with a value and a variable has the type of the variable: `{ "a"; x }` has the type of `x`. -/
theorem value_beside_variable_lost (ρ : Nat → Val) (s r : Text) (x : Nat) (hx : ρ x = .str r) :
    eval ρ (.code [.str s, .var x]) = some (.str (s ++ r)) ∧
    (Has ρ (check (.code [.str s, .var x])) (.str (s ++ r)) → s = []) := by
  have e : check (.code [.str s, .var x]) = .var x := by
    simp [check, checkAll, joinAll, Joiner.start, Joiner.join, Joiner.finalize]
  refine ⟨?_, ?_⟩
  · simp [eval, evalCode, joined, hx]
  · rw [e, Has, hx]
    intro h
    simpa using h

/-- **C144**, negated in part: markup has the type its parts would have as code, so it is nothing if there is no text in it, and
`[#1]` has the type `1`. -/
theorem markup_as_code (ρ : Nat → Val) : (∀ es, check (.markup es) = check (.code es)) ∧
    (∀ es v, eval ρ (.markup es) = some v → v = .content) ∧
    ¬ Has ρ (check (.markup [])) .content ∧ ¬ Has ρ (check (.markup [.space])) .content ∧
    ∀ n, ¬ Has ρ (check (.markup [.int n])) .content := by
  refine ⟨fun es => by rw [check, check], fun es v h => evalMarkup_content es (by rw [eval] at h; exact h), ?_, ?_, fun n => ?_⟩
  · have e : check (.markup []) = .none := by simp [check, checkAll, joinAll, Joiner.start, Joiner.finalize]
    rw [e, Has]; simp
  · have e : check (.markup [.space]) = .none := by simp [check, checkAll, joinAll, Joiner.start, Joiner.join, Joiner.finalize]
    rw [e, Has]; simp
  · have e : check (.markup [.int n]) = .value (.int n) := by
      simp [check, checkAll, joinAll, Joiner.start, Joiner.join, Joiner.finalize]
    rw [e, Has]; simp

/-- **C144**, negated in part: an array with a spread item has the type of the others. -/
theorem spread_lost (ρ : Nat → Val) (x : Nat) (vs : List Val) (hx : ρ x = .arr vs) (n : Int) :
    eval ρ (.arr [(false, .int n), (true, .var x)]) = some (.arr (.int n :: vs)) ∧
    (Has ρ (check (.arr [(false, .int n), (true, .var x)])) (.arr (.int n :: vs)) → vs = []) := by
  refine ⟨by simp [eval, evalItems, hx], ?_⟩
  have e : check (.arr [(false, .int n), (true, .var x)]) = .tuple [.value (.int n)] := by simp [check, checkItems]
  rw [e, Has]
  rintro ⟨us, h, hu⟩
  cases h
  simp only [HasAll] at hu
  obtain ⟨u, ws, h1, _, h2⟩ := hu
  rw [h2] at h1
  simp only [List.cons.injEq] at h1
  exact h1.2

/-! ## The claims are about something -/

/-- `{ let y = 1; if c { "a" } else { (x, [b]) } }` -/
def sample : Exp := .code [.bind (.int 1), .cond (.var 0) (.code [.str ['a']]) (.code [.arr [(false, .var 1), (false, .markup [.text])]])]

example : Fine sample := by
  have inner : ∀ e, Fine e → check e ≠ .any → (∀ x, check e ≠ .var x) → (∀ x, e ≠ .var x) → Fine (.code [e]) := by
    intro e h1 h2 h3 h4
    refine .code (fun x hx => ?_) (fun x hx => ?_) (fun pre x post h _ => ?_)
    · cases List.mem_singleton.1 hx; exact h1
    · cases List.mem_singleton.1 hx; exact ⟨h2, fun x hx => (h3 x hx).elim⟩
    · have : Exp.var x ∈ [e] := by rw [h]; simp
      exact (h4 x (List.mem_singleton.1 this).symm).elim
  refine .code ?_ ?_ ?_
  · intro e he
    simp only [List.mem_cons, List.not_mem_nil, or_false] at he
    rcases he with rfl | rfl
    · exact .bind _
    · refine .cond (inner _ (.str _) (by simp [check]) (by simp [check]) (by simp)) (inner _ ?_ (by simp [check]) (by simp [check]) (by simp))
      refine .arr (by simp) fun i hi => ?_
      simp only [List.mem_cons, List.not_mem_nil, or_false] at hi
      rcases hi with rfl | rfl
      · exact .var _
      · exact .markup (by simp) (by simp)
  · intro e he
    simp only [List.mem_cons, List.not_mem_nil, or_false] at he
    rcases he with rfl | rfl <;> simp [check]
  · intro pre x post h _
    have : Exp.var x ∈ [Exp.bind (.int 1), .cond (.var 0) (.code [.str ['a']])
      (.code [.arr [(false, .var 1), (false, .markup [.text])]])] := by rw [h]; simp
    simp at this

example : eval (fun x => if x = 0 then .bool true else .none) sample = some (.str ['a']) := by
  simp [sample, eval, evalCode, joined]

end Tinymist.ExprTy
