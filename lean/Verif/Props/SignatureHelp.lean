import Verif.Props.CallArgs
/-!
# C69: signature help
-/
namespace Tinymist.CallArgs

/-- The parameters signature help lists: all, or in a set rule the settable ones. -/
def shown (s : Sig) (isSet : Bool) : List Param :=
  s.params.filter fun p => !isSet || p.settable

theorem helpGo_names (shift : Nat) (isSet : Bool) (t : Target) (ps : List Param) :
    ∀ (idx real : Nat) (act : Option Nat), (helpGo shift isSet t idx real act ps).1 =
      (ps.filter fun p => !isSet || p.settable).map (·.name) := by
  induction ps with
  | nil => intro _ _ _; rfl
  | cons p ps ih =>
    intro idx real act
    simp only [helpGo]
    cases isSet <;> cases h : p.settable <;> simp [h, ih] <;> rfl

theorem helpGo_pos (shift n : Nat) (ps : List Param) : ∀ (idx : Nat) (act : Option Nat),
    (helpGo shift false (.positional n) idx idx act ps).2 =
      if idx ≤ n + shift ∧ n + shift < idx + ps.length then some (n + shift) else act := by
  induction ps with
  | nil => intro idx act; simp only [helpGo, List.length_nil]; rw [if_neg (by omega)]
  | cons p ps ih =>
    intro idx act
    simp only [helpGo, Bool.false_and, Bool.false_eq_true, if_false, isActive, Bool.not_false,
      Bool.true_and, ih, List.length_cons, decide_eq_true_eq]
    by_cases h : n + shift = idx
    · rw [if_neg (by omega), if_pos h, if_pos (by omega), h]
    · rw [if_neg h]
      by_cases h2 : idx + 1 ≤ n + shift ∧ n + shift < idx + 1 + ps.length
      · rw [if_pos h2, if_pos (by omega)]
      · rw [if_neg h2, if_neg (by omega)]

theorem helpGo_set_pos (shift n : Nat) (ps : List Param) : ∀ (idx real : Nat) (act : Option Nat),
    (helpGo shift true (.positional n) idx real act ps).2 = act := by
  induction ps with
  | nil => intro _ _ _; rfl
  | cons p ps ih =>
    intro idx real act
    simp only [helpGo]
    split
    · exact ih ..
    · simp only [ih, isActive, Bool.not_true, Bool.false_and, Bool.false_eq_true, if_false]

theorem helpGo_named (shift : Nat) (isSet : Bool) (x : Name) (ps : List Param) :
    ∀ (idx real : Nat) (act : Option Nat),
    let l := (ps.filter fun p => !isSet || p.settable).map (·.name)
    (∃ k : Nat, (helpGo shift isSet (.named x) idx real act ps).2 = some (real + k) ∧ l[k]? = some x ∧
      ∀ k' : Nat, k < k' → l[k']? ≠ some x) ∨
    ((helpGo shift isSet (.named x) idx real act ps).2 = act ∧ x ∉ l) := by
  induction ps with
  | nil => intro idx real act; exact Or.inr ⟨rfl, by simp⟩
  | cons p ps ih =>
    intro idx real act
    simp only [helpGo]
    by_cases hs : (isSet && !p.settable) = true
    · have hf : (!isSet || p.settable) = false := by
        cases isSet <;> cases h : p.settable <;> simp_all
      rw [if_pos hs]
      have := ih (idx + 1) real act
      simp only [List.filter_cons, hf, Bool.false_eq_true, if_false]
      exact this
    · have hf : (!isSet || p.settable) = true := by
        cases isSet <;> cases h : p.settable <;> simp_all
      rw [if_neg hs]
      simp only [List.filter_cons, hf, if_true, List.map_cons]
      rcases ih (idx + 1) (real + 1) (if isActive shift isSet (.named x) idx p then some real else act)
        with ⟨k, h1, h2, h3⟩ | ⟨h1, h2⟩
      · refine Or.inl ⟨k + 1, by rw [h1]; congr 1; omega, by simpa using h2, fun k' hk' => ?_⟩
        cases k' with
        | zero => omega
        | succ k' => simpa using h3 k' (by omega)
      · rw [h1]
        by_cases ha : x = p.name
        · refine Or.inl ⟨0, by simp [isActive, ha], by simp [ha], fun k' hk' => ?_⟩
          cases k' with
          | zero => omega
          | succ k' =>
            rw [List.getElem?_cons_succ]
            exact fun h => h2 (List.mem_of_getElem? h)
        · refine Or.inr ⟨by simp [isActive, ha], ?_⟩
          simp only [List.mem_cons, not_or]
          exact ⟨ha, h2⟩

/-- **C69** (list). Signature help lists every parameter of the function, in a set rule every settable
one, positional parameters first, then the named ones, then the sink. -/
theorem help_lists (s : Sig) (w : WithStack) (isSet : Bool) (t : Target) :
    (help s w isSet t).1 = ((s.pos ++ s.named ++ s.rest.toList).filter fun p =>
      !isSet || p.settable).map (·.name) := by
  unfold help
  cases t with
  | positional n => exact helpGo_names ..
  | named n => exact helpGo_names ..

/-- **C69** (partial: positional arguments that go to a positional parameter of a closure whose sink
stands behind these; only positional arguments were bound by `.with`).  With the cursor in the positional
argument number `p` of a call, the highlighted parameter is the one Typst passes the argument to. -/
theorem highlighted_is_bound_partial (ps : List ClosureParam) (hl : SinkLast ps) (h1 : OneSink ps)
    (withs : List (List (Option Name))) (hw : ∀ a ∈ withs.flatten, a = none) (p n : Nat) (x : Name)
    (hb : Bound ps n (withArgs withs + p) (.pos x)) :
    ∃ k, (help (sigOf ps) (runtimeStack withs) false (.positional p)).2 = some k ∧
      k = withArgs withs + p ∧
      (help (sigOf ps) (runtimeStack withs) false (.positional p)).1[k]? = some x := by
  have hshift : paramShift (runtimeStack withs) = withArgs withs := by
    unfold paramShift runtimeStack withArgs
    rw [List.map_reverse, List.sum_reverse]
    have : withs.flatten.filter (·.isNone) = withs.flatten :=
      List.filter_eq_self.mpr (fun a ha => by rw [hw a ha]; rfl)
    rw [this, List.length_flatten]
  have hm := matchAt_bound hl h1 hb
  have hlt : withArgs withs + p < posCount ps := by
    refine Classical.byContradiction fun hge => ?_
    unfold matchAt at hm
    rw [sigOf_posSize, if_neg hge] at hm
    cases hr : (sigOf ps).rest <;> rw [hr] at hm <;> simp [ClosureParam.kind] at hm
  have hget : (sigOf ps).pos[withArgs withs + p]? = some (ClosureParam.spec (.pos x)) := by
    unfold matchAt at hm
    rw [sigOf_posSize, if_pos hlt, Option.map_eq_some_iff] at hm
    obtain ⟨q, hq, he⟩ := hm
    rw [hq]; congr 1
    exact congrArg Prod.snd he
  refine ⟨withArgs withs + p, ?_, rfl, ?_⟩
  · have hlen : (sigOf ps).posSize ≤ (sigOf ps).params.length := by
      unfold Sig.params
      simp only [List.length_append, (funcSignature_wf _).posLen (s := sigOf ps)]; omega
    simp only [help, helpGo_pos, hshift]
    rw [sigOf_posSize] at hlen
    rw [if_pos (by omega), sigOf_posSize, Option.map_some]
    congr 1; omega
  · rw [help_lists]
    have : (fun p : Param => !false || p.settable) = fun _ => true := by funext p; rfl
    rw [this, List.filter_eq_self.mpr (fun _ _ => rfl), List.getElem?_map, List.append_assoc, List.getElem?_append_left
      (by have := (List.getElem?_eq_some_iff.mp hget).1; exact this), hget]
    rfl

/-- **C69** (named arguments). With the cursor in a named argument, the highlighted parameter has that
name; if the listed parameters have no such name, none is highlighted. -/
theorem named_highlighted (s : Sig) (w : WithStack) (isSet : Bool) (x : Name) :
    (x ∈ (help s w isSet (.named x)).1 →
      ∃ k, (help s w isSet (.named x)).2 = some k ∧ (help s w isSet (.named x)).1[k]? = some x) ∧
    (x ∉ (help s w isSet (.named x)).1 → (help s w isSet (.named x)).2 = none) := by
  have hn : (help s w isSet (.named x)).1 = (s.params.filter fun p => !isSet || p.settable).map (·.name) :=
    help_lists ..
  rw [hn]
  have h2 : (help s w isSet (.named x)).2 = (helpGo (paramShift w) isSet (.named x) 0 0 none s.params).2 := rfl
  rw [h2]
  rcases helpGo_named (paramShift w) isSet x s.params 0 0 none with ⟨k, h, hk, _⟩ | ⟨h, hx⟩
  · exact ⟨fun _ => ⟨k, by rw [h, Nat.zero_add], hk⟩, fun hx => absurd (List.mem_of_getElem? hk) hx⟩
  · exact ⟨fun hx' => absurd hx' hx, fun _ => h⟩

/-- **C69** (set rules). A positional argument of a set rule highlights nothing. -/
theorem set_rule_highlights_nothing (s : Sig) (w : WithStack) (n : Nat) :
    (help s w true (.positional n)).2 = none := by
  simp only [help, helpGo_set_pos, Option.map_none]

/-- **C69** (never out of the list). -/
theorem highlighted_listed (s : Sig) (w : WithStack) (isSet : Bool) (t : Target) (k : Nat)
    (h : (help s w isSet t).2 = some k) : k < (help s w isSet t).1.length := by
  cases t with
  | named x =>
    have := named_highlighted s w isSet x
    by_cases hx : x ∈ (help s w isSet (.named x)).1
    · obtain ⟨k', h1, h2⟩ := this.1 hx
      rw [h] at h1
      cases h1
      exact (List.getElem?_eq_some_iff.mp h2).1
    · rw [this.2 hx] at h; cases h
  | positional n =>
    cases isSet with
    | true => rw [set_rule_highlights_nothing] at h; cases h
    | false =>
      rw [help_lists]
      simp only [help, helpGo_pos] at h
      have hf : (fun p : Param => !false || p.settable) = fun _ => true := by funext p; rfl
      rw [hf, List.filter_eq_self.mpr (fun _ _ => rfl), List.length_map]
      have : s.params = s.pos ++ s.named ++ s.rest.toList := rfl
      rw [← this]
      split at h
      · simp only [Option.map_some, Option.some.injEq] at h
        omega
      · cases h

/-- **C69**, refuted: the sink is never highlighted when the closure has a positional parameter and
nothing was bound: an argument passed to the sink highlights the last positional parameter, or nothing. -/
theorem sink_never_highlighted (ps : List ClosureParam) (hl : SinkLast ps) (hp : 0 < posCount ps)
    (n p : Nat) (x : Name) (hb : Bound ps n p (.sink x)) (k : Nat)
    (h : (help (sigOf ps) [] false (.positional p)).2 = some k) :
    k = posCount ps - 1 ∧ (sigOf ps).params[k]? ≠ none ∧
      ∃ y, .pos y ∈ ps ∧ (help (sigOf ps) [] false (.positional p)).1[k]? = some y := by
  have hge : posCount ps ≤ p := by
    cases hb with
    | @sink a b _ _ he h1 h2 =>
      have h0 : posCount b = 0 := posCount_zero.mpr (hl a x b he)
      rw [he, posCount_append, posCount_cons, h0]; simp only [ClosureParam.isPos, Bool.false_eq_true, if_false]; omega
  have hshift : paramShift [] = 0 := rfl
  have hk : k = posCount ps - 1 := by
    simp only [help, helpGo_pos, hshift, sigOf_posSize] at h
    split at h
    · simp only [Option.map_some, Option.some.injEq] at h; omega
    · cases h
  have hlt : k < (sigOf ps).pos.length := by
    rw [(funcSignature_wf _).posLen (s := sigOf ps), sigOf_posSize]; omega
  refine ⟨hk, ?_, ?_⟩
  · unfold Sig.params
    rw [List.append_assoc, List.getElem?_append_left hlt, List.getElem?_eq_getElem hlt]
    simp
  · have hmem : (sigOf ps).pos[k] ∈ (sigOf ps).pos := List.getElem_mem hlt
    have h2 := hmem
    have h3 : ∀ q ∈ (sigOf ps).pos, ∃ a ∈ ps.filter (·.isPos), a.spec = q := by
      intro q hq; rw [sigOf_pos] at hq; exact List.mem_map.mp hq
    replace h2 := h3 _ h2
    obtain ⟨q, hq, he⟩ := h2
    rw [List.mem_filter] at hq
    cases q with
    | named => cases hq.2
    | sink => cases hq.2
    | pos y =>
      refine ⟨y, hq.1, ?_⟩
      rw [help_lists]
      have hf : (fun p : Param => !false || p.settable) = fun _ => true := by funext p; rfl
      rw [hf, List.filter_eq_self.mpr (fun _ _ => rfl), List.getElem?_map, List.append_assoc, List.getElem?_append_left hlt,
        List.getElem?_eq_getElem hlt, ← he]
      rfl

/-- … `#let f(a, ..r) = ..`, `#f(1, 2)` with the cursor in `2`. -/
theorem sink_highlights_other :
    let ps : List ClosureParam := [.pos na, .sink nr]
    Bound ps 2 1 (.sink nr) ∧ help (sigOf ps) [] false (.positional 1) = ([na, nr], some 0) := by
  refine ⟨.sink (a := [.pos na]) (b := []) rfl (by decide) (by decide), by decide +kernel⟩

/-- **C69**, refuted: a named argument bound by `.with` counts as a positional one.
`#let f(a, b, k: 0) = ..`, `#f.with(k: 1)(2)` with the cursor in `2` highlights `b`. -/
theorem with_named_shifts :
    let ps : List ClosureParam := [.pos na, .pos nb, .named nk]
    Bound ps 1 0 (.pos na) ∧
    help (sigOf ps) (runtimeStack [[some nk]]) false (.positional 0) = ([na, nb, nk], some 1) := by
  refine ⟨?_, by decide +kernel⟩
  exact .front (a := []) (b := [.pos nb, .named nk]) rfl (by simp) (by decide)

/-- **C69**, refuted: without positional parameters a named one is highlighted for an argument of the
sink. `#let f(k: 0, ..r) = ..`, `#f(1)`. -/
theorem sink_highlights_named :
    let ps : List ClosureParam := [.named nk, .sink nr]
    Bound ps 1 0 (.sink nr) ∧ help (sigOf ps) [] false (.positional 0) = ([nk, nr], some 0) := by
  refine ⟨.sink (a := [.named nk]) (b := []) rfl (by decide) (by decide), by decide +kernel⟩

/-- The hypotheses are met: `#let f(a, b, ..r) = ..`, `#f.with(1)(2)` with the cursor in `2`. -/
example : let ps : List ClosureParam := [.pos na, .pos nb, .sink nr]
    Bound ps 2 (withArgs [[none]] + 0) (.pos nb) ∧
    help (sigOf ps) (runtimeStack [[none]]) false (.positional 0) = ([na, nb, nr], some 1) := by
  refine ⟨?_, by decide +kernel⟩
  exact .front (a := [.pos na]) (b := [.sink nr]) rfl (by simp [ClosureParam.isSink]) (by decide)

end Tinymist.CallArgs
