import Verif.Spec.Sampled

/-!
# The values shown for an expression (C133)
-/

namespace Tinymist.Sampled

open Spec

variable {V : Type}

theorem addCount_concat (l : List String) (p : String) (n : Nat) :
    addCount (l ++ [p]) n = l ++ [p ++ " (x" ++ toString n ++ ")"] := by
  rw [addCount, List.getLast?_append]
  simp

theorem closeRun_concat (k : Values V) (v : V) (n : Nat) (hn : 0 < n) (l : List String) :
    closeRun (some (v, n)) (l ++ [k.repr v]) = l ++ [runText k.repr (v, n)] := by
  rw [closeRun, runText]
  by_cases h : 1 < n
  · rw [if_pos h, if_neg (by simp only; omega), addCount_concat]
  · rw [if_neg h, if_pos (by simp only; omega)]

/-- The loop from within a run. -/
theorem loop_runs (k : Values V) (values : List V) (v : V) (n : Nat) (hn : 0 < n) (l : List String) (s : State V)
    (hl : s.last = some (v, n)) (hp : s.pieces = l ++ [k.repr v]) :
    ∃ eqs rest rs, values = eqs ++ rest ∧ (∀ e ∈ eqs, k.same v e = true) ∧ (∀ w, rest.head? = some w → k.same v w = false) ∧
      Runs k.same rest rs ∧
      closeRun (values.foldl (step k) s).last (values.foldl (step k) s).pieces =
        l ++ runText k.repr (v, n + eqs.length) :: rs.map (runText k.repr) := by
  induction values generalizing v n l s with
  | nil =>
    refine ⟨[], [], [], rfl, by simp, by simp, .nil, ?_⟩
    rw [List.foldl_nil, hl, hp, closeRun_concat k v n hn]
    simp
  | cons w values ih =>
    rw [List.foldl_cons]
    have hs : step k s w = if k.same v w then { s with last := some (v, n + 1) } else newValue k s w := by
      rw [step, hl]
    cases hw : k.same v w with
    | true =>
      rw [hs, hw, if_pos rfl]
      obtain ⟨eqs, rest, rs, h1, h2, h3, h4, h5⟩ := ih v (n + 1) (by omega) l { s with last := some (v, n + 1) } rfl hp
      refine ⟨w :: eqs, rest, rs, by rw [h1]; rfl, ?_, h3, h4, ?_⟩
      · intro e he
        rcases List.mem_cons.mp he with rfl | he
        · exact hw
        · exact h2 e he
      · rw [h5, List.length_cons, show n + 1 + eqs.length = n + (eqs.length + 1) by omega]
    | false =>
      rw [hs, hw, if_neg (by simp)]
      have hnew : (newValue k s w).last = some (w, 1) ∧
          (newValue k s w).pieces = (l ++ [runText k.repr (v, n)]) ++ [k.repr w] := by
        rw [← closeRun_concat k v n hn l, ← hp, ← hl, newValue]
        split
        · split <;> exact ⟨rfl, rfl⟩
        · exact ⟨rfl, rfl⟩
      obtain ⟨eqs, rest, rs, h1, h2, h3, h4, h5⟩ := ih w 1 (by omega) _ _ hnew.1 hnew.2
      refine ⟨[], w :: values, (w, eqs.length + 1) :: rs, rfl, by simp, ?_, ?_, ?_⟩
      · intro x hx
        cases hx
        exact hw
      · rw [h1]
        exact .run h2 h3 h4
      · rw [h5, List.map_cons, show 1 + eqs.length = eqs.length + 1 by omega]
        simp

/-- The text of the loop is that of the runs of the values. -/
theorem loop_all (k : Values V) (values : List V) :
    ∃ rs, Runs k.same values rs ∧
      closeRun (values.foldl (step k) ⟨none, [], none, true⟩).last (values.foldl (step k) ⟨none, [], none, true⟩).pieces =
        rs.map (runText k.repr) := by
  cases values with
  | nil => exact ⟨[], .nil, rfl⟩
  | cons v values =>
    rw [List.foldl_cons]
    have hnew : (step k ⟨none, [], none, true⟩ v).last = some (v, 1) ∧
        (step k ⟨none, [], none, true⟩ v).pieces = [] ++ [k.repr v] := by
      simp only [step, newValue, closeRun]
      split <;> exact ⟨rfl, rfl⟩
    obtain ⟨eqs, rest, rs, h1, h2, h3, h4, h5⟩ := loop_runs k values v 1 (by omega) [] _ hnew.1 hnew.2
    refine ⟨(v, eqs.length + 1) :: rs, ?_, ?_⟩
    · rw [h1]
      exact .run h2 h3 h4
    · rw [h5, List.map_cons, show 1 + eqs.length = eqs.length + 1 by omega]
      rfl

theorem sampled_pieces (k : Values V) (max : Nat) (values : List V) (rs : List (V × Nat))
    (h : closeRun ((values.take (max - 1)).foldl (step k) ⟨none, [], none, true⟩).last
      ((values.take (max - 1)).foldl (step k) ⟨none, [], none, true⟩).pieces = rs.map (runText k.repr)) :
    sampled k max values =
      if (((values.take (max - 1)).foldl (step k) ⟨none, [], none, true⟩).uniqueFunc.isSome &&
        ((values.take (max - 1)).foldl (step k) ⟨none, [], none, true⟩).unique) = true then none
      else if (rs.map (runText k.repr) ++ (if max - 1 < values.length then ["..."] else [])) = [] then none
      else some (.code (rs.map (runText k.repr) ++ (if max - 1 < values.length then ["..."] else []))) := by
  rw [sampled]
  simp only
  rw [h]
  by_cases hd : max - 1 < values.length
  · have : (values.drop (max - 1)).isEmpty = false := by
      cases he : (values.drop (max - 1)).isEmpty with
      | false => rfl
      | true =>
        rw [List.isEmpty_iff, List.drop_eq_nil_iff] at he
        omega
    simp [this, hd]
  · have : (values.drop (max - 1)).isEmpty = true := by
      rw [List.isEmpty_iff, List.drop_eq_nil_iff]
      omega
    simp [this, hd]

/-- C133: the pieces shown for an expression are the runs of its recorded values, in order, each with its count, followed
by dots exactly if there are more values than are shown. -/
theorem values_shown (k : Values V) (max : Nat) (literal : Bool) (values : List V) (pieces : List String)
    (h : exprTooltip k max literal values = some (.code pieces)) :
    ∃ rs, Runs k.same (values.take (max - 1)) rs ∧
      pieces = rs.map (runText k.repr) ++ (if max - 1 < values.length then ["..."] else []) := by
  have hs : sampled k max values = some (.code pieces) := by
    have hrest : ∀ x, (if literal = true then none else sampled k max values) = some (Tooltip.code x) →
        sampled k max values = some (.code x) := by
      intro x hx
      split at hx
      · cases hx
      · exact hx
    match values, h, hrest with
    | [], h, hrest => exact hrest _ h
    | [v], h, hrest =>
      simp only [exprTooltip] at h
      cases hd : k.docs v with
      | some d => rw [hd] at h; cases h
      | none =>
        rw [hd] at h
        cases hl : k.length v with
        | some d => rw [hl] at h; cases h
        | none => rw [hl] at h; exact hrest _ h
    | _ :: _ :: _, h, hrest => exact hrest _ h
  obtain ⟨rs, h1, h2⟩ := loop_all k (values.take (max - 1))
  refine ⟨rs, h1, ?_⟩
  rw [sampled_pieces k max values rs h2] at hs
  generalize rs.map (runText k.repr) ++ (if max - 1 < values.length then ["..."] else []) = t at *
  split at hs
  · cases hs
  · split at hs
    · cases hs
    · exact (Tooltip.code.inj (Option.some.inj hs)).symm

/-- The runs of a list of values are determined by it. -/
theorem runs_unique {same : V → V → Bool} {l : List V} {rs rs' : List (V × Nat)} (h : Runs same l rs) (h' : Runs same l rs') :
    rs = rs' := by
  induction h generalizing rs' with
  | nil =>
    generalize hl : ([] : List V) = l at h'
    cases h' with
    | nil => rfl
    | run _ _ _ => cases hl
  | @run v eqs rest rs h1 h2 h3 ih =>
    generalize hl : v :: eqs ++ rest = l at h'
    cases h' with
    | nil => cases hl
    | @run v' eqs' rest' rs' h1' h2' h3' =>
      simp only [List.cons_append, List.cons.injEq] at hl
      obtain ⟨rfl, hl⟩ := hl
      have key : eqs = eqs' ∧ rest = rest' := by
        rcases List.append_eq_append_iff.mp hl with ⟨m, ha, hb⟩ | ⟨m, ha, hb⟩
        · cases m with
          | nil => exact ⟨by rw [ha, List.append_nil], by rw [hb]; rfl⟩
          | cons x m =>
            have := h2 x (by rw [hb]; rfl)
            rw [h1' x (by rw [ha]; simp)] at this
            cases this
        · cases m with
          | nil => exact ⟨by rw [ha, List.append_nil], by rw [hb]; rfl⟩
          | cons x m =>
            have := h2' x (by rw [hb]; rfl)
            rw [h1 x (by rw [ha]; simp)] at this
            cases this
      obtain ⟨rfl, rfl⟩ := key
      rw [ih h3']

/-- With values that are told apart, the runs spell out the values. -/
theorem runs_expand [DecidableEq V] {l : List V} {rs : List (V × Nat)} (h : Runs (fun a b => decide (a = b)) l rs) :
    rs.flatMap (fun r => List.replicate r.2 r.1) = l := by
  induction h with
  | nil => rfl
  | @run v eqs rest rs h1 _ _ ih =>
    rw [List.flatMap_cons, ih]
    simp only [List.replicate_succ, List.cons_append]
    congr 2
    exact (List.eq_replicate_iff.mpr ⟨rfl, fun b hb => (of_decide_eq_true (h1 b hb)).symm⟩).symm

/-! ## When nothing is shown -/

/-- Within the loop, all values so far are the same function. -/
def Only (f : V) (s : State V) : Prop :=
  ∃ n, s.last = some (f, n) ∧ s.uniqueFunc = some f ∧ s.unique = true

theorem loop_same (k : Values V) (f : V) (values : List V) (h : ∀ v ∈ values, k.same f v = true) (s : State V)
    (hs : Only f s) : Only f (values.foldl (step k) s) := by
  induction values generalizing s with
  | nil => exact hs
  | cons v values ih =>
    rw [List.foldl_cons]
    obtain ⟨n, h1, h2, h3⟩ := hs
    refine ih (fun w hw => h w (.tail _ hw)) _ ?_
    rw [step, h1]
    simp only [h v (.head _), if_true]
    exact ⟨n + 1, rfl, h2, h3⟩

theorem loop_false (k : Values V) (values : List V) (s : State V) (hs : s.unique = false) :
    (values.foldl (step k) s).unique = false := by
  induction values generalizing s with
  | nil => exact hs
  | cons v values ih =>
    rw [List.foldl_cons]
    refine ih _ ?_
    rw [step]
    split
    · split
      · exact hs
      · rw [newValue]
        simp only [hs]
        split
        · split <;> rfl
        · rfl
    · rw [newValue]
      simp only [hs]
      split
      · split <;> rfl
      · rfl

/-- A loop that ends with one function has only seen values that are the same as it. -/
theorem loop_unique (k : Values V) (htrans : ∀ a b c, k.same a b = true → k.same b c = true → k.same a c = true)
    (f p : V) (n : Nat) (values : List V) (s : State V) (hl : s.last = some (p, n)) (hp : k.same f p = true ∨ p = f)
    (hu : s.uniqueFunc = some f) (h : (values.foldl (step k) s).unique = true) : ∀ v ∈ values, k.same f v = true := by
  induction values generalizing s p n with
  | nil => intro v hv; cases hv
  | cons w values ih =>
    rw [List.foldl_cons] at h
    have hs : step k s w = if k.same p w then { s with last := some (p, n + 1) } else newValue k s w := by
      rw [step, hl]
    cases hw : k.same p w with
    | true =>
      have hfw : k.same f w = true := by
        rcases hp with hp | rfl
        · exact htrans f p w hp hw
        · exact hw
      rw [hs, hw, if_pos rfl] at h
      intro v hv
      rcases List.mem_cons.mp hv with rfl | hv
      · exact hfw
      · exact ih p (n + 1) { s with last := some (p, n + 1) } rfl hp hu h v hv
    | false =>
      rw [hs, hw, if_neg (by simp)] at h
      have hun : (newValue k s w).unique = true := by
        cases hx : (newValue k s w).unique with
        | true => rfl
        | false => rw [loop_false k values _ hx] at h; cases h
      have hfw : k.same f w = true ∧ (newValue k s w).last = some (w, 1) ∧ (newValue k s w).uniqueFunc = some f := by
        rw [newValue] at hun ⊢
        simp only [hu] at hun ⊢
        by_cases hfn : k.isFunc w = true
        · rw [if_pos hfn] at hun ⊢
          refine ⟨?_, rfl, rfl⟩
          simp only at hun
          split at hun
          · exact hun
          · rename_i hsu
            exact absurd hun hsu
        · rw [if_neg hfn] at hun
          cases hun
      intro v hv
      rcases List.mem_cons.mp hv with rfl | hv
      · exact hfw.1
      · exact ih w 1 _ hfw.2.1 (.inl hfw.1) hfw.2.2 h v hv

theorem runs_nil {same : V → V → Bool} {l : List V} {rs : List (V × Nat)} (h : Runs same l rs) (h0 : rs = []) : l = [] := by
  cases h with
  | nil => rfl
  | run => cases h0

/-- C133: nothing is shown for an expression that is not a literal, and has no documentation, exactly if no value is
recorded, or if its values are all one function.

Partial: only the values that would be shown are looked at, so that the others may be different ones
(`other_function_hidden`). -/
theorem hidden_iff_partial (k : Values V) (htrans : ∀ a b c, k.same a b = true → k.same b c = true → k.same a c = true)
    (max : Nat) (hmax : 2 ≤ max) (values : List V) :
    sampled k max values = none ↔
      values = [] ∨ ∃ f rest, values.take (max - 1) = f :: rest ∧ k.isFunc f = true ∧ ∀ v ∈ rest, k.same f v = true := by
  cases values with
  | nil => simp [sampled, closeRun]
  | cons f values =>
    have ht : (f :: values).take (max - 1) = f :: values.take (max - 2) := by
      rw [show max - 1 = (max - 2) + 1 by omega, List.take_succ_cons]
    obtain ⟨rs, hr, hrt⟩ := loop_all k ((f :: values).take (max - 1))
    have hne : rs.map (runText k.repr) ≠ [] := by
      intro h
      have := runs_nil hr (List.map_eq_nil_iff.mp h)
      rw [ht] at this
      cases this
    have hnone : sampled k max (f :: values) = none ↔
        ((((f :: values).take (max - 1)).foldl (step k) ⟨none, [], none, true⟩).uniqueFunc.isSome &&
          (((f :: values).take (max - 1)).foldl (step k) ⟨none, [], none, true⟩).unique) = true := by
      rw [sampled_pieces k max _ rs hrt]
      split
      · rename_i h
        exact ⟨fun _ => h, fun _ => rfl⟩
      · rename_i h
        refine ⟨fun hx => ?_, fun hx => absurd hx h⟩
        rw [if_neg] at hx
        · cases hx
        · intro he
          exact hne (List.append_eq_nil_iff.mp he).1
    rw [hnone, ht, List.foldl_cons]
    have h0 : step k ⟨none, [], none, true⟩ f = newValue k ⟨none, [], none, true⟩ f := rfl
    rw [h0]
    by_cases hf : k.isFunc f = true
    · have hn : newValue k ⟨none, [], none, true⟩ f = ⟨some (f, 1), [k.repr f], some f, true⟩ := by
        rw [newValue]
        simp only [hf, if_true]
        rfl
      rw [hn, Bool.and_eq_true]
      constructor
      · rintro ⟨-, h⟩
        exact .inr ⟨f, _, rfl, hf, loop_unique k htrans f f 1 _ _ rfl (.inr rfl) rfl h⟩
      · rintro (h | ⟨f', rest, h, h2, h3⟩)
        · cases h
        · cases h
          obtain ⟨n, h4, h5, h6⟩ := loop_same k f _ h3 ⟨some (f, 1), [k.repr f], some f, true⟩ ⟨1, rfl, rfl, rfl⟩
          rw [h5, h6]
          exact ⟨rfl, rfl⟩
    · have hn : (newValue k ⟨none, [], none, true⟩ f).unique = false := by
        rw [newValue]
        simp only [hf]
        rfl
      rw [loop_false k _ _ hn, Bool.and_false]
      constructor
      · intro h
        cases h
      · rintro (h | ⟨f', rest, h, h2, h3⟩)
        · cases h
        · cases h
          exact absurd h2 hf

/-- C133, what does not hold: when the first values are one function, nothing is shown although the last value recorded is
another function. -/
theorem other_function_hidden :
    let k : Values Nat := ⟨fun a b => a == b, toString, fun _ => true, fun _ => none, fun _ => none⟩
    sampled k 10 [1, 1, 1, 1, 1, 1, 1, 1, 1, 2] = none ∧
    sampled k 10 [1, 1, 1, 1, 1, 1, 1, 1, 2] = some (.code ["1 (x8)", "2"]) := by
  decide

/-- C133, what does not hold: values that typst takes to be equal are counted together under the first of them, although
they are written differently, such as `1` and `1.0`. -/
theorem equal_values_merged (k : Values V) (a b : V) (hs : k.same a b = true) (ha : k.isFunc a = false) :
    sampled k 10 [a, b] = some (.code [k.repr a ++ " (x2)"]) := by
  have : toString 2 = "2" := by decide
  simp [sampled, step, newValue, closeRun, hs, ha, addCount, this, String.append_assoc]

/-! ## A case -/

/-- A sample of values: `1`, `1`, `2`, `1`. -/
example : sampled (⟨fun a b => a == b, toString, fun _ => false, fun _ => none, fun _ => none⟩ : Values Nat) 10 [1, 1, 2, 1] =
    some (.code ["1 (x2)", "2", "1"]) := by
  decide

example : sampled (⟨fun a b => a == b, toString, fun _ => false, fun _ => none, fun _ => none⟩ : Values Nat) 3 [1, 1, 2] =
    some (.code ["1 (x2)", "..."]) := by
  decide

end Tinymist.Sampled
