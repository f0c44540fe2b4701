import Verif.Lemmas.CallArgs
/-!
# C68, C69: parameter hints and signature help
-/
namespace Tinymist.CallArgs

/-! ## The specification of calls -/

/-- The specification determines the parameter. -/
theorem bound_unique {ps : List ClosureParam} (h1 : OneSink ps) (hl : SinkLast ps) {n i : Nat}
    {q q' : ClosureParam} (h : Bound ps n i q) (h' : Bound ps n i q') :
    q.kind = q'.kind ∧ q.name = q'.name := by
  have e := (matchAt_bound hl h1 h).symm.trans (matchAt_bound hl h1 h')
  simp only [Option.some.injEq, Prod.mk.injEq] at e
  refine ⟨e.1, ?_⟩
  have := congrArg Param.name e.2
  cases q <;> cases q' <;> exact this

/-- Every positional argument of a call Typst accepts is passed to some parameter. -/
theorem bound_exists {ps : List ClosureParam} (hl : SinkLast ps) {n i : Nat} (hi : i < n)
    (hok : n = posCount ps ∨ (posCount ps ≤ n ∧ ∃ q ∈ ps, q.isSink = true)) : ∃ q, Bound ps n i q := by
  refine Classical.byContradiction fun hno => ?_
  have hno' : ∀ q, ¬ Bound ps n i q := fun q hq => hno ⟨q, hq⟩
  have := matchAt_unbound hl hi hno'
  unfold matchAt at this
  rw [sigOf_posSize, sigOf_pos, sigOf_rest] at this
  by_cases hlt : i < posCount ps
  · simp only [hlt, if_true, Option.map_eq_none_iff] at this
    rw [List.getElem?_eq_none_iff] at this
    simp [posCount] at this hlt; omega
  · simp only [hlt, if_false, Option.map_eq_none_iff] at this
    rcases hok with h | ⟨_, q, hq, hs⟩
    · omega
    · exact (List.find?_eq_none.mp this) q hq hs

/-! ## C68 -/

/-- **C68** (partial: the sink of the called closure, if it has one, stands behind its positional
parameters, and the function is reached as a value, not through an alias whose definition is analysed).
No call makes the analysis panic.  Every positional argument in front of any spread argument is matched
with the parameter Typst passes it to, whatever number `n` of positional arguments the call has in the
end; with nothing if there is no such parameter. -/
theorem matched_is_bound_partial (ps : List ClosureParam) (hl : SinkLast ps) (h1 : OneSink ps)
    (withs : List (List (Option Name))) (pre post : List Arg) (hs : Arg.spread ∉ pre) :
    ∃ infos, analyzeCall (sigOf ps) (runtimeStack withs) (pre ++ post) = some infos ∧
      infos.length = (pre ++ post).length ∧
      ∀ (k : Nat) (c : Bool), pre[k]? = some (.pos c) →
        ∀ n, withArgs withs + posArgs (pre.take k) < n →
          (∀ q, Bound ps n (withArgs withs + posArgs (pre.take k)) q →
            ∃ i : Info, infos[k]? = some (some i) ∧ i.kind = q.kind ∧ i.name = q.name ∧
              (i.content = true ↔ c = true ∧ ¬ Between pre k)) ∧
          ((∀ q, ¬ Bound ps n (withArgs withs + posArgs (pre.take k)) q) → infos[k]? = some none) := by
  have wf := funcSignature_wf (ps.map (·.spec))
  obtain ⟨r, hr⟩ := walk_total (s := sigOf ps) wf (pre ++ post) true _ ⟨unnamed (runtimeStack withs), rfl⟩
  refine ⟨r, by rw [analyzeCall_at (s := sigOf ps) wf]; exact hr, ?_⟩
  obtain ⟨hlen, hk⟩ := walk_at (s := sigOf ps) wf post pre hs true _ r hr
  refine ⟨hlen, fun k c hkc n hn => ?_⟩
  have hpos := (hk k _ hkc).1 c rfl
  rw [unnamed_runtime] at hpos
  refine ⟨fun q hq => ?_, fun hq => ?_⟩
  · rw [matchAt_bound hl h1 hq, Option.map_some] at hpos
    refine ⟨_, hpos, rfl, by cases q <;> rfl, ?_⟩
    have hkl : k ≤ pre.length := by
      have := (List.getElem?_eq_some_iff.mp hkc).1; omega
    have := outAt_iff pre true k hkl
    simp only [Bool.and_eq_true]
    constructor
    · rintro ⟨h2, h3⟩
      refine ⟨h3, fun hb => ?_⟩
      rw [this.mpr (Or.inl hb)] at h2; cases h2
    · rintro ⟨h2, h3⟩
      refine ⟨?_, h2⟩
      cases ho : outAt true pre k with
      | true => rfl
      | false =>
        rcases this.mp ho with h | ⟨h, _⟩
        · exact absurd h h3
        · cases h
  · rw [matchAt_unbound hl hn hq] at hpos
    exact hpos

/-- **C68** (named arguments). A named argument is matched with the parameter of that name, if the
closure has one, wherever it stands in the call. -/
theorem named_matched (ps : List ClosureParam) (withs : List (List (Option Name)))
    (pre post : List Arg) (hs : Arg.spread ∉ pre) (infos : List (Option Info))
    (hi : analyzeCall (sigOf ps) (runtimeStack withs) (pre ++ post) = some infos) (k : Nat) (x : Name)
    (hk : pre[k]? = some (.named x)) :
    (.named x ∈ ps → infos[k]? = some (some ⟨.named, false, x⟩)) ∧
    (.named x ∉ ps → infos[k]? = some none) := by
  have wf := funcSignature_wf (ps.map (·.spec))
  rw [analyzeCall_at (s := sigOf ps) wf] at hi
  have h := (((walk_at (s := sigOf ps) wf post pre hs true _ infos hi).2 k _ hk).2.1) x rfl
  obtain ⟨h1, h2⟩ := getNamed_closure ps x
  refine ⟨fun hx => ?_, fun hx => ?_⟩
  · obtain ⟨p, hp, hn⟩ := h1 hx
    rw [h, hp, Option.map_some, hn]
  · rw [h, h2 hx]; rfl

theorem mem_hints_positional (sized single : Bool) (l : List (Nat × Option Info)) (a : Nat) (x : Name) :
    ∀ first, (⟨a, false, x⟩ ∈ hintsGo sized single first l ↔
      sized = false ∧ single = false ∧ x ≠ [] ∧ (a, some ⟨.positional, false, x⟩) ∈ l) := by
  induction l with
  | nil => intro first; simp [hintsGo]
  | cons e l ih =>
    intro first
    obtain ⟨b, i⟩ := e
    cases i with
    | none => simp only [hintsGo, ih]; simp
    | some i =>
      obtain ⟨kind, content, name⟩ := i
      simp only [hintsGo]
      by_cases hn : name.isEmpty
      · rw [if_pos hn, ih]
        have hn' : name = [] := by simpa using hn
        subst hn'
        constructor
        · rintro ⟨h1, h2, h3, h4⟩; exact ⟨h1, h2, h3, List.mem_cons_of_mem _ h4⟩
        · rintro ⟨h1, h2, h3, h4⟩
          refine ⟨h1, h2, h3, ?_⟩
          rcases List.mem_cons.mp h4 with h | h
          · simp only [Prod.mk.injEq, Option.some.injEq, Info.mk.injEq] at h
            exact absurd h.2.2.2 h3
          · exact h
      · rw [if_neg hn]
        cases kind with
        | named =>
          simp only [ih]; simp
        | positional =>
          simp only []
          have hn' : name ≠ [] := by simpa using hn
          by_cases hc : (sized || content || single) = true
          · rw [if_pos hc, ih]
            constructor
            · rintro ⟨h1, h2, h3, h4⟩; exact ⟨h1, h2, h3, List.mem_cons_of_mem _ h4⟩
            · rintro ⟨h1, h2, h3, h4⟩
              refine ⟨h1, h2, h3, ?_⟩
              rcases List.mem_cons.mp h4 with h | h
              · simp only [Prod.mk.injEq, Option.some.injEq, Info.mk.injEq] at h
                rw [h1, h2, ← h.2.2.1] at hc; simp at hc
              · exact h
          · rw [if_neg hc, List.mem_cons, ih]
            simp only [Bool.or_eq_true, not_or, Bool.not_eq_true] at hc
            constructor
            · rintro (h | ⟨h1, h2, h3, h4⟩)
              · simp only [Hint.mk.injEq] at h
                refine ⟨hc.1.1, hc.2, by rw [h.2.2]; exact hn', ?_⟩
                rw [h.1, h.2.2, hc.1.2]; exact List.mem_cons_self ..
              · exact ⟨h1, h2, h3, List.mem_cons_of_mem _ h4⟩
            · rintro ⟨h1, h2, h3, h4⟩
              rcases List.mem_cons.mp h4 with h | h
              · simp only [Prod.mk.injEq, Option.some.injEq, Info.mk.injEq] at h
                exact Or.inl (by rw [h.1, h.2.2.2])
              · exact Or.inr ⟨h1, h2, h3, h⟩
        | rest =>
          simp only []
          split
          · rw [ih]; simp
          · rw [List.mem_cons, ih]; simp

/-- A match with a sink that has a name. -/
def namedRest (e : Nat × Option Info) : Bool := e.2.any fun i => i.kind = .rest && !i.name.isEmpty

theorem mem_hints_rest (sized single : Bool) (l : List (Nat × Option Info)) (a : Nat) (x : Name) :
    ∀ first, (⟨a, true, x⟩ ∈ hintsGo sized single first l ↔
      first = true ∧ single = false ∧
      ∃ c, l.find? namedRest = some (a, some ⟨.rest, c, x⟩)) := by
  induction l with
  | nil => intro first; simp [hintsGo]
  | cons e l ih =>
    intro first
    obtain ⟨b, i⟩ := e
    cases i with
    | none => simp only [hintsGo, ih, List.find?_cons, namedRest, Option.any_none]
    | some i =>
      obtain ⟨kind, content, name⟩ := i
      simp only [hintsGo, List.find?_cons]
      by_cases hn : name.isEmpty
      · rw [if_pos hn, ih]
        have : namedRest (b, some ⟨kind, content, name⟩) = false := by simp [namedRest, hn]
        rw [this]
      · rw [if_neg hn]
        cases kind with
        | named =>
          have : namedRest (b, some ⟨.named, content, name⟩) = false := by simp [namedRest]
          simp only [ih, this]
        | positional =>
          have : namedRest (b, some ⟨.positional, content, name⟩) = false := by simp [namedRest]
          rw [this]
          simp only []
          split
          · rw [ih]
          · rw [List.mem_cons, ih]; simp
        | rest =>
          have : namedRest (b, some ⟨.rest, content, name⟩) = true := by
            have hn' : name.isEmpty = false := by simpa using hn
            simp [namedRest, hn']
          rw [this]
          simp only []
          by_cases hc : (single || !first) = true
          · rw [if_pos hc, ih]
            simp only [Bool.or_eq_true, Bool.not_eq_true'] at hc
            constructor
            · rintro ⟨h, _⟩; cases h
            · rintro ⟨h1, h2, _⟩
              rcases hc with h | h
              · rw [h2] at h; cases h
              · rw [h1] at h; cases h
          · rw [if_neg hc, List.mem_cons, ih]
            simp only [Bool.or_eq_true, not_or, Bool.not_eq_true, Bool.not_eq_false'] at hc
            constructor
            · rintro (h | ⟨h, _⟩)
              · simp only [Hint.mk.injEq] at h
                exact ⟨hc.2, hc.1, content, by rw [h.1, h.2.2]⟩
              · cases h
            · rintro ⟨_, _, c, h⟩
              simp only [Option.some.injEq, Prod.mk.injEq, Info.mk.injEq] at h
              exact Or.inl (by rw [h.1, h.2.2.2])

theorem singlePos_iff (infos : List (Option Info)) :
    singlePos infos = false ↔
      2 ≤ (infos.filter Direct).length ∨ (1 ≤ (infos.filter Direct).length ∧ ∃ i ∈ infos, Rest i = true) := by
  have e : (infos.filter fun i => i.any fun i => i.kind = .positional && !i.content) =
    infos.filter Direct := rfl
  have e2 : (infos.any fun i => i.any fun i => i.kind = .rest) = true ↔ ∃ i ∈ infos, Rest i = true := by
    rw [List.any_eq_true]; rfl
  unfold singlePos
  simp only [e]
  rw [decide_eq_false_iff_not]
  by_cases hr : (infos.any fun i => i.any fun i => i.kind = .rest) = true
  · rw [if_pos hr]
    have := e2.mp hr
    constructor
    · intro h; exact Or.inr ⟨by omega, this⟩
    · rintro (h | ⟨h, _⟩) <;> omega
  · rw [if_neg hr]
    constructor
    · intro h; exact Or.inl (by omega)
    · rintro (h | ⟨_, h⟩)
      · omega
      · exact absurd (e2.mpr h) hr

/-- **C68** (which hints are shown). A positional argument is hinted, at its own start and with the name
of its parameter, unless it is a content block behind the parentheses, is the only argument of its kind
in a call that passes nothing to the sink, its parameter has no name, or the function has a `fill`,
`stroke` or `size` parameter.  Of the arguments passed to the sink the first is hinted, if a positional
argument stands in the call.  There are no other hints. -/
theorem hinted_iff (s : Sig) (w : WithStack) (args : List (Nat × Arg)) (infos : List (Option Info))
    (hs : List Hint) (hi : analyzeCall s w (args.map Prod.snd) = some infos)
    (hh : hints s w args = some hs) (a : Nat) (x : Name) :
    (⟨a, false, x⟩ ∈ hs ↔ (a, some ⟨.positional, false, x⟩) ∈ (args.map Prod.fst).zip infos ∧ x ≠ [] ∧
      s.sized = false ∧
      (2 ≤ (infos.filter Direct).length ∨ ∃ i ∈ infos, Rest i = true)) ∧
    (⟨a, true, x⟩ ∈ hs ↔
      (∃ l c l', (args.map Prod.fst).zip infos = l ++ (a, some ⟨.rest, c, x⟩) :: l' ∧ x ≠ [] ∧
        ∀ e ∈ l, namedRest e = false) ∧
      1 ≤ (infos.filter Direct).length) := by
  unfold hints at hh
  rw [hi, Option.map_some, Option.some.injEq] at hh
  subst hh
  rw [mem_hints_positional, mem_hints_rest, singlePos_iff]
  constructor
  · constructor
    · rintro ⟨h1, h2, h3, h4⟩
      refine ⟨h4, h3, h1, ?_⟩
      rcases h2 with h | ⟨_, h⟩
      · exact Or.inl h
      · exact Or.inr h
    · rintro ⟨h1, h2, h3, h4⟩
      refine ⟨h3, ?_, h2, h1⟩
      rcases h4 with h | h
      · exact Or.inl h
      · refine Or.inr ⟨?_, h⟩
        have : some (⟨.positional, false, x⟩ : Info) ∈ infos := (List.of_mem_zip h1).2
        exact List.length_pos_of_mem (List.mem_filter.mpr ⟨this, by simp [Direct]⟩)
  · have hfind : (∃ c, ((args.map Prod.fst).zip infos).find? namedRest = some (a, some ⟨.rest, c, x⟩)) ↔
        ∃ l c l', (args.map Prod.fst).zip infos = l ++ (a, some ⟨.rest, c, x⟩) :: l' ∧ x ≠ [] ∧
          ∀ e ∈ l, namedRest e = false := by
      constructor
      · rintro ⟨c, h⟩
        obtain ⟨h1, l, l', h2, h3⟩ := List.find?_eq_some_iff_append.mp h
        refine ⟨l, c, l', h2, ?_, fun e he => by simpa using h3 e he⟩
        simp [namedRest] at h1; exact h1
      · rintro ⟨l, c, l', h2, h1, h3⟩
        refine ⟨c, List.find?_eq_some_iff_append.mpr ⟨?_, l, l', h2, fun e he => by simpa using h3 e he⟩⟩
        simp [namedRest, h1]
    rw [hfind]
    constructor
    · rintro ⟨_, h2, h3⟩
      refine ⟨h3, ?_⟩
      rcases h2 with h | ⟨h, _⟩ <;> omega
    · rintro ⟨h3, h2⟩
      refine ⟨rfl, ?_, h3⟩
      obtain ⟨l, c, l', h4, _⟩ := h3
      have : some (⟨.rest, c, x⟩ : Info) ∈ infos := by
        have : (a, some (⟨.rest, c, x⟩ : Info)) ∈ (args.map Prod.fst).zip infos := by rw [h4]; simp
        exact (List.of_mem_zip this).2
      exact Or.inr ⟨h2, _, this, by simp [Rest]⟩

/-- **C68** (no hints). The hints of positional arguments are left out of calls of exactly the functions with a named parameter
`fill`, `stroke` or `size`. -/
theorem sized_iff (ps : List ClosureParam) : (sigOf ps).sized = true ↔
    .named "fill".toList ∈ ps ∨ .named "stroke".toList ∈ ps ∨ .named "size".toList ∈ ps := by
  have e1 : "fill".toList = ['f', 'i', 'l', 'l'] := by decide +kernel
  have e2 : "stroke".toList = ['s', 't', 'r', 'o', 'k', 'e'] := by decide +kernel
  have e3 : "size".toList = ['s', 'i', 'z', 'e'] := by decide +kernel
  have key : ∀ n : Name, .named n ∈ ps ↔ ∃ p ∈ (ps.map (·.spec)).filter (·.named), p.name = n := by
    intro n
    constructor
    · intro h
      exact ⟨ClosureParam.spec (.named n), List.mem_filter.mpr ⟨List.mem_map_of_mem h, rfl⟩, rfl⟩
    · rintro ⟨p, hp, rfl⟩
      obtain ⟨hp, hn⟩ := List.mem_filter.mp hp
      obtain ⟨q, hq, rfl⟩ := List.mem_map.mp hp
      cases q with
      | named m => exact hq
      | pos m => cases hn
      | sink m => cases hn
  rw [e1, e2, e3, key, key, key]
  unfold sigOf funcSignature sizedName
  simp only [List.any_eq_true, Bool.or_eq_true, decide_eq_true_eq]
  constructor
  · rintro ⟨p, hp, (h | h) | h⟩
    · exact .inl ⟨p, hp, h⟩
    · exact .inr (.inl ⟨p, hp, h⟩)
    · exact .inr (.inr ⟨p, hp, h⟩)
  · rintro (⟨p, hp, h⟩ | ⟨p, hp, h⟩ | ⟨p, hp, h⟩)
    · exact ⟨p, hp, .inl (.inl h)⟩
    · exact ⟨p, hp, .inl (.inr h)⟩
    · exact ⟨p, hp, .inr h⟩

/-- **C68** (aliases). For the alias of a function the `.with` calls on the way take the first positional parameters, as many as
positional arguments were given to all of them; the parameter shown as active is moved by as many. -/
theorem alias_takes (s : Sig) (ns : List Nat) :
    (windStack s [] ns).flatten = (s.pos.take ns.sum).map (fun p => some p.name) ∧
    paramShift (windStack s [] ns) = min ns.sum s.pos.length := by
  have key : ∀ (ns : List Nat) (acc : List Param), (windGo acc ns).flatten = (acc.take ns.sum).map (fun p => some p.name) := by
    intro ns
    induction ns with
    | nil => intro acc; simp [windGo]
    | cons n ns ih =>
      intro acc
      have e : (if (windOne acc n).isEmpty then [] else [windOne acc n] : WithStack).flatten = windOne acc n := by
        split
        · rename_i h; rw [List.isEmpty_iff] at h; rw [h]; rfl
        · simp
      rw [windGo]
      simp only [List.flatten_append]
      rw [e, ih, List.sum_cons, windOne, ← List.map_append, List.take_add]
  have e : (windStack s [] ns).flatten = (s.pos.take ns.sum).map (fun p => some p.name) := by
    unfold windStack; simpa using key ns s.pos
  refine ⟨e, ?_⟩
  have := congrArg List.length e
  simpa [List.length_flatten, paramShift] using this

/-- **C68** (order). The hints come in the order of the arguments. -/
theorem hints_in_order (s : Sig) (w : WithStack) (args : List (Nat × Arg)) (hs : List Hint)
    (hh : hints s w args = some hs) : (hs.map (·.at_)).Sublist (args.map Prod.fst) := by
  have key : ∀ (sized single : Bool) (l : List (Nat × Option Info)) (first : Bool),
      ((hintsGo sized single first l).map (·.at_)).Sublist (l.map Prod.fst) := by
    intro sized single l
    induction l with
    | nil => intro first; exact List.Sublist.refl _
    | cons e l ih =>
      intro first
      obtain ⟨b, i⟩ := e
      cases i with
      | none => exact (ih first).cons _
      | some i =>
        simp only [hintsGo]
        split
        · exact (ih first).cons _
        · split
          · exact (ih first).cons _
          · split
            · exact (ih first).cons _
            · exact (ih first).cons₂ _
          · split
            · exact (ih false).cons _
            · exact (ih false).cons₂ _
  unfold hints at hh
  rw [Option.map_eq_some_iff] at hh
  obtain ⟨infos, _, rfl⟩ := hh
  refine (key _ _ _ _).trans ?_
  have : ∀ (l : List Nat) (r : List (Option Info)), ((l.zip r).map Prod.fst).Sublist l := by
    intro l
    induction l with
    | nil => intro r; simp
    | cons a l ih => intro r; cases r with
      | nil => simp
      | cons b r => simpa using ih r
  exact this _ _

/-! The full statement of C68 is wrong for this code. -/

def na : Name := ['a']
def nb : Name := ['b']
def nr : Name := ['r']
def nk : Name := ['k']

/-- **C68**, refuted: a positional parameter behind the sink. `#let f(a, ..r, b) = ..`, `#f(1, 2, 3)`:
the second argument is passed to `r` and the third to `b`; the hints say `b` and `r`. -/
theorem sink_in_the_middle_wrong :
    let ps : List ClosureParam := [.pos na, .sink nr, .pos nb]
    OneSink ps ∧ Bound ps 3 1 (.sink nr) ∧ Bound ps 3 2 (.pos nb) ∧
    hints (sigOf ps) [] [(2, .lparen), (3, .pos false), (4, .other), (6, .pos false), (7, .other),
      (9, .pos false), (10, .rparen)] = some [⟨3, false, na⟩, ⟨6, false, nb⟩, ⟨9, true, nr⟩] := by
  refine ⟨by unfold OneSink; decide, ?_, ?_, by decide +kernel⟩
  · exact .sink (a := [.pos na]) (b := [.pos nb]) rfl (by decide) (by decide)
  · exact .back (a := [.pos na, .sink nr]) (b := []) rfl ⟨.sink nr, by simp, rfl⟩ (by decide)

/-- **C68**, refuted: an alias. `#let f(a, b) = ..`, `#let g = f.with(1)`: the analysed definition of `g`
carries the arguments of `.with` under the *names* of the parameters they fill, and the call analysis
skips only arguments without a name: whatever was bound, the arguments of `g` are matched like those of
`f`. -/
theorem alias_forgets_with (s : Sig) (ns : List Nat) (args : List Arg) :
    analyzeCall s (windStack s [] ns) args = analyzeCall s [] args := by
  have hz : ∀ (ns : List Nat) (acc : List Param), unnamed (windGo acc ns) = 0 := by
    intro ns
    induction ns with
    | nil => intro acc; rfl
    | cons n ns ih =>
      intro acc
      have := ih (acc.drop n)
      unfold unnamed at this ⊢
      have hsome : ∀ (l : List Param), ((l.map fun p => some p.name).filter (·.isNone)).length = 0 := by
        intro l; induction l with
        | nil => rfl
        | cons a l ih => simpa using ih
      simp only [windGo, List.reverse_append, List.map_append, List.sum_append, this]
      split
      · rfl
      · simp only [List.reverse_cons, List.reverse_nil, List.nil_append, List.map_cons, List.map_nil,
          List.sum_cons, List.sum_nil, windOne, hsome, Nat.add_zero]
  unfold analyzeCall
  have h1 : unnamed (windStack s [] ns) = 0 := by
    unfold windStack; rw [List.nil_append]; exact hz _ _
  have h2 : unnamed [] = 0 := rfl
  rw [h1, h2]

/-- … so `#g(2, 3)` with `#let f(a, b, c) = ..` and `#let g = f.with(1)` hints `a` and `b` for the
arguments passed to `b` and `c`. -/
theorem alias_wrong :
    let ps : List ClosureParam := [.pos na, .pos nb, .pos nk]
    SinkLast ps ∧ Bound ps 3 1 (.pos nb) ∧ Bound ps 3 2 (.pos nk) ∧
    hints (sigOf ps) (windStack (sigOf ps) [] [1]) [(3, .pos false), (6, .pos false)] =
      some [⟨3, false, na⟩, ⟨6, false, nb⟩] := by
  refine ⟨?_, ?_, ?_, by decide +kernel⟩
  · intro a x b h
    have : ClosureParam.sink x ∈ [ClosureParam.pos na, .pos nb, .pos nk] := by rw [h]; simp
    simp at this
  · exact .front (a := [.pos na]) (b := [.pos nk]) rfl (by simp [ClosureParam.isSink]) (by decide)
  · exact .front (a := [.pos na, .pos nb]) (b := []) rfl (by simp [ClosureParam.isSink]) (by decide)

/-- **C68**, refuted: behind a spread argument. `#let f(a, b, ..r) = ..`, `#f(..(1,), 2)`: the second
argument is passed to `b`, and is matched with `r`. -/
theorem after_spread_wrong :
    let ps : List ClosureParam := [.pos na, .pos nb, .sink nr]
    SinkLast ps ∧ Bound ps 2 1 (.pos nb) ∧
    analyzeCall (sigOf ps) [] [.spread, .pos false] =
      some [some ⟨.rest, false, nr⟩, some ⟨.rest, false, nr⟩] := by
  refine ⟨?_, ?_, by decide +kernel⟩
  · intro a x b h q hq
    cases a with
    | nil => cases h
    | cons a0 a =>
      cases a with
      | nil => cases h
      | cons a1 a =>
        cases a with
        | nil => cases h; cases hq
        | cons a2 a => simp at h
  · exact .front (a := [.pos na]) (b := [.sink nr]) rfl (by simp [ClosureParam.isSink]) (by decide)

/-- The hypotheses are met: `#let f(a, k: 1, b, ..r) = ..`, `#f(1, 2, 3, k: 4)`. -/
example : let ps : List ClosureParam := [.pos na, .named nk, .pos nb, .sink nr]
    OneSink ps ∧ Bound ps 3 0 (.pos na) ∧ Bound ps 3 1 (.pos nb) ∧ Bound ps 3 2 (.sink nr) ∧
    analyzeCall (sigOf ps) [] [.lparen, .pos false, .pos false, .pos false, .named nk, .rparen] =
      some [none, some ⟨.positional, false, na⟩, some ⟨.positional, false, nb⟩, some ⟨.rest, false, nr⟩,
        some ⟨.named, false, nk⟩, none] := by
  refine ⟨by unfold OneSink; decide, ?_, ?_, ?_, by decide +kernel⟩
  · exact .front (a := []) (b := [.named nk, .pos nb, .sink nr]) rfl (by simp) (by decide)
  · exact .front (a := [.pos na, .named nk]) (b := [.sink nr]) rfl (by simp [ClosureParam.isSink]) (by decide)
  · exact .sink (a := [.pos na, .named nk, .pos nb]) (b := []) rfl (by decide) (by decide)

end Tinymist.CallArgs
