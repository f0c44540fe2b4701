import Verif.Spec.CallArgs
namespace Tinymist.CallArgs

/-- A signature whose parts fit together. -/
structure Sig.WF (s : Sig) : Prop where
  posLen : s.pos.length = s.posSize
  rest : s.spread = true → s.rest.isSome = true

/-- The state after `j` positional arguments. -/
def stateAt (s : Sig) (j : Nat) : PosState :=
  if j < s.posSize then .pos j else if s.spread then .variadic else .final

/-- What the positional argument number `j` is matched with. -/
def matchAt (s : Sig) (j : Nat) : Option (Kind × Param) :=
  if j < s.posSize then (s.pos[j]?).map fun p => (.positional, p) else s.rest.map fun p => (.rest, p)

theorem advance_init {s : Sig} (h : s.WF) : advance s .init = some (stateAt s 0, none) := by
  unfold advance stateAt
  have : (!s.pos.isEmpty) = decide (0 < s.posSize) := by
    rw [← h.posLen]; cases s.pos <;> simp
  simp only [this]
  by_cases hp : 0 < s.posSize <;> simp [hp]

theorem rest_none {s : Sig} (h : s.spread = false) : s.rest = none := by
  unfold Sig.rest; simp [h]

theorem advance_at {s : Sig} (h : s.WF) (j : Nat) :
    advance s (stateAt s j) = some (stateAt s (j + 1), matchAt s j) := by
  unfold stateAt
  by_cases hj : j < s.posSize
  · have hj' : j < s.pos.length := by rw [h.posLen]; exact hj
    simp only [hj, if_true, advance, matchAt, List.getElem?_eq_getElem hj', Option.map_some]
  · have hj2 : ¬ j + 1 < s.posSize := by omega
    simp only [hj, hj2, if_false, matchAt]
    cases hs : s.spread with
    | true =>
      have := h.rest hs
      obtain ⟨p, hp⟩ := Option.isSome_iff_exists.mp this
      simp [advance, hp]
    | false => simp [advance, rest_none hs]

theorem skip_at {s : Sig} (h : s.WF) (n : Nat) : ∀ j, skip s (stateAt s j) n = some (stateAt s (j + n)) := by
  induction n with
  | zero => intro j; rfl
  | succ n ih =>
    intro j
    simp only [skip, advance_at h, Option.bind_some]
    rw [ih]; congr 2; omega

theorem posArgs_cons (a : Arg) (as : List Arg) :
    posArgs (a :: as) = (if a.isPos then 1 else 0) + posArgs as := by
  unfold posArgs
  cases h : a.isPos <;> simp [h]; omega

/-- Whether child `k` is outside the parentheses when the walk begins `out`side or not. -/
def outAt (out : Bool) : List Arg → Nat → Bool
  | _, 0 => out
  | [], _ => out
  | .lparen :: as, k + 1 => outAt false as k
  | .rparen :: as, k + 1 => outAt true as k
  | _ :: as, k + 1 => outAt out as k

/-- The loop, child by child, as far as there is no spread argument. -/
theorem walk_at {s : Sig} (h : s.WF) (post : List Arg) (pre : List Arg) (hs : Arg.spread ∉ pre) :
    ∀ (out : Bool) (j : Nat) (r : List (Option Info)), walk s out (stateAt s j) (pre ++ post) = some r →
      r.length = (pre ++ post).length ∧
      ∀ k a, pre[k]? = some a →
        (∀ c, a = .pos c → r[k]? = some ((matchAt s (j + posArgs (pre.take k))).map fun q =>
            ⟨q.1, outAt out pre k && c, q.2.name⟩)) ∧
        (∀ x, a = .named x → r[k]? = some ((s.getNamed x).map fun p => ⟨.named, false, p.name⟩)) ∧
        (a.isPos = false → (∀ x, a ≠ .named x) → r[k]? = some none) := by
  have hlen : ∀ (l : List Arg) (out : Bool) (st : PosState) (r : List (Option Info)),
      walk s out st l = some r → r.length = l.length := by
    intro l
    induction l with
    | nil => intro out st r hr; simp only [walk, Option.some.injEq] at hr; subst hr; rfl
    | cons a l ih =>
      intro out st r hr
      cases a with
      | lparen | rparen | other | named =>
        simp only [walk, Option.map_eq_some_iff] at hr
        obtain ⟨r', h1, rfl⟩ := hr
        simp [ih _ _ _ h1]
      | pos | spread =>
        simp only [walk, Option.bind_eq_some_iff, Option.map_eq_some_iff] at hr
        obtain ⟨q, _, r', h1, rfl⟩ := hr
        simp [ih _ _ _ h1]
  intro out j r hr
  refine ⟨hlen _ _ _ _ hr, ?_⟩
  induction pre generalizing out j r with
  | nil => intro k a hk; simp at hk
  | cons a0 pre ih =>
    have hs' : Arg.spread ∉ pre := fun hh => hs (List.mem_cons_of_mem _ hh)
    intro k a hk
    have step : ∀ (out' : Bool) (j' : Nat) (r' : List (Option Info)) (hd : Option Info),
        walk s out' (stateAt s j') (pre ++ post) = some r' → r = hd :: r' →
        j' = j + posArgs [a0] → (∀ i, outAt out (a0 :: pre) (i + 1) = outAt out' pre i) →
        ∀ k', k = k' + 1 → 
          (∀ c, a = .pos c → r[k]? = some ((matchAt s (j + posArgs ((a0 :: pre).take k))).map fun q =>
            ⟨q.1, outAt out (a0 :: pre) k && c, q.2.name⟩)) ∧
          (∀ x, a = .named x → r[k]? = some ((s.getNamed x).map fun p => ⟨.named, false, p.name⟩)) ∧
          (a.isPos = false → (∀ x, a ≠ .named x) → r[k]? = some none) := by
      intro out' j' r' hd hw hr' hj hout k' hk'
      subst hk'
      rw [List.getElem?_cons_succ] at hk
      have := ih hs' out' j' r' hw k' a hk
      subst hr'
      simp only [List.getElem?_cons_succ, List.take_succ_cons, hout]
      have he : j + posArgs (a0 :: pre.take k') = j' + posArgs (pre.take k') := by
        rw [hj, posArgs_cons, posArgs_cons]; simp only [posArgs, List.filter_nil, List.length_nil]; omega
      rw [he]
      exact this
    cases a0 with
    | spread => exact absurd (List.mem_cons_self ..) hs
    | lparen =>
      simp only [List.cons_append, walk, Option.map_eq_some_iff] at hr
      obtain ⟨r', hw, hr'⟩ := hr
      cases k with
      | zero =>
        simp only [List.getElem?_cons_zero, Option.some.injEq] at hk; subst hk; subst hr'
        exact ⟨(fun c hc => by cases hc), (fun x hc => by cases hc), fun _ _ => rfl⟩
      | succ k => exact step false j r' none hw hr'.symm rfl (fun i => rfl) k rfl
    | rparen =>
      simp only [List.cons_append, walk, Option.map_eq_some_iff] at hr
      obtain ⟨r', hw, hr'⟩ := hr
      cases k with
      | zero =>
        simp only [List.getElem?_cons_zero, Option.some.injEq] at hk; subst hk; subst hr'
        exact ⟨(fun c hc => by cases hc), (fun x hc => by cases hc), fun _ _ => rfl⟩
      | succ k => exact step true j r' none hw hr'.symm rfl (fun i => rfl) k rfl
    | other =>
      simp only [List.cons_append, walk, Option.map_eq_some_iff] at hr
      obtain ⟨r', hw, hr'⟩ := hr
      cases k with
      | zero =>
        simp only [List.getElem?_cons_zero, Option.some.injEq] at hk; subst hk; subst hr'
        exact ⟨(fun c hc => by cases hc), (fun x hc => by cases hc), fun _ _ => rfl⟩
      | succ k => exact step out j r' none hw hr'.symm rfl (fun i => rfl) k rfl
    | named x0 =>
      simp only [List.cons_append, walk, Option.map_eq_some_iff] at hr
      obtain ⟨r', hw, hr'⟩ := hr
      cases k with
      | zero =>
        simp only [List.getElem?_cons_zero, Option.some.injEq] at hk; subst hk; subst hr'
        exact ⟨(fun c hc => by cases hc), (fun x hc => by cases hc; rfl), fun _ hx => absurd rfl (hx x0)⟩
      | succ k => exact step out j r' _ hw hr'.symm rfl (fun i => rfl) k rfl
    | pos c0 =>
      simp only [List.cons_append, walk, Option.bind_eq_some_iff, Option.map_eq_some_iff] at hr
      obtain ⟨q, hq, r', hw, hr'⟩ := hr
      rw [advance_at h] at hq
      cases hq
      cases k with
      | zero =>
        simp only [List.getElem?_cons_zero, Option.some.injEq] at hk; subst hk; subst hr'
        refine ⟨fun c hc => ?_, (fun x hc => by cases hc), (fun hx => by cases hx)⟩
        cases hc; rfl
      | succ k => exact step out (j + 1) r' _ hw hr'.symm rfl (fun i => rfl) k rfl

/-- Without a spread argument the loop does not panic; nor with one. -/
theorem walk_total {s : Sig} (h : s.WF) (l : List Arg) : ∀ (out : Bool) (st : PosState),
    (∃ j, st = stateAt s j) → ∃ r, walk s out st l = some r := by
  induction l with
  | nil => intro out st _; exact ⟨_, rfl⟩
  | cons a l ih =>
    intro out st hst
    cases a with
    | lparen => obtain ⟨r, hr⟩ := ih false st hst; exact ⟨_, by simp only [walk, hr, Option.map_some]; rfl⟩
    | rparen => obtain ⟨r, hr⟩ := ih true st hst; exact ⟨_, by simp only [walk, hr, Option.map_some]; rfl⟩
    | other => obtain ⟨r, hr⟩ := ih out st hst; exact ⟨_, by simp only [walk, hr, Option.map_some]; rfl⟩
    | named => obtain ⟨r, hr⟩ := ih out st hst; exact ⟨_, by simp only [walk, hr, Option.map_some]; rfl⟩
    | pos c =>
      obtain ⟨j, rfl⟩ := hst
      obtain ⟨r, hr⟩ := ih out (stateAt s (j + 1)) ⟨_, rfl⟩
      exact ⟨_, by simp only [walk, advance_at h, Option.bind_some, hr, Option.map_some]; rfl⟩
    | spread =>
      obtain ⟨j, rfl⟩ := hst
      have hbig : stateAt s s.posSize = if s.spread then .variadic else .final := by
        unfold stateAt; simp
      have : ∃ q, advanceRest s (stateAt s j) = some (stateAt s s.posSize, q) := by
        rw [hbig]
        unfold stateAt
        by_cases hj : j < s.posSize
        · exact ⟨_, by simp only [hj, if_true, advanceRest]; rfl⟩
        · simp only [hj, if_false]
          cases s.spread <;> exact ⟨_, rfl⟩
      obtain ⟨q, hq⟩ := this
      obtain ⟨r, hr⟩ := ih out (stateAt s s.posSize) ⟨_, rfl⟩
      exact ⟨_, by simp only [walk, hq, Option.bind_some, hr, Option.map_some]; rfl⟩

theorem unnamed_runtime (withs : List (List (Option Name))) :
    unnamed (runtimeStack withs) = withArgs withs := by
  unfold unnamed runtimeStack withArgs
  rw [List.reverse_reverse]
  induction withs with
  | nil => rfl
  | cons w ws ih => simp [ih]

theorem analyzeCall_at {s : Sig} (h : s.WF) (w : WithStack) (args : List Arg) :
    analyzeCall s w args = walk s true (stateAt s (unnamed w)) args := by
  simp only [analyzeCall, advance_init h, Option.bind_some, skip_at h, Nat.zero_add]

/-! ## The signature of a closure -/

theorem filter_pos (ps : List ClosureParam) :
    (ps.map (·.spec)).filter (fun p => !p.variadic && p.positional) =
      (ps.filter (·.isPos)).map (·.spec) := by
  rw [List.filter_map]
  congr 1
  apply List.filter_congr
  intro p _
  cases p <;> rfl

theorem find_sink (ps : List ClosureParam) :
    (ps.map (·.spec)).find? (·.variadic) = ((ps.find? (·.isSink)).map (·.spec)) := by
  rw [List.find?_map]
  congr 2
  funext p
  cases p <;> rfl

/-- For any function: the named part has one entry for each name. -/
theorem named_specs_length (ps : List Param) :
    ((((ps.filter (·.named)).map (·.name)).mergeSort nameLe).filterMap
      (fun n => (ps.filter (·.named)).reverse.find? (fun p => p.name = n))).length =
    (((ps.filter (·.named)).map (·.name)).mergeSort nameLe).length := by
  have key : ∀ (l : List Name), (∀ n ∈ l, n ∈ (ps.filter (·.named)).map (·.name)) →
      (l.filterMap (fun n => (ps.filter (·.named)).reverse.find? (fun p => p.name = n))).length =
        l.length := by
    intro l
    induction l with
    | nil => intro _; rfl
    | cons n l ih =>
      intro hl
      obtain ⟨p, hp, hn⟩ := List.mem_map.mp (hl n (List.mem_cons_self ..))
      have : ((ps.filter (·.named)).reverse.find? (fun p => p.name = n)).isSome = true := by
        rw [List.find?_isSome]
        exact ⟨p, List.mem_reverse.mpr hp, by simp [hn]⟩
      obtain ⟨q, hq⟩ := Option.isSome_iff_exists.mp this
      rw [List.filterMap_cons_some (by exact hq)]
      simp [ih (fun m hm => hl m (List.mem_cons_of_mem _ hm))]
  exact key _ (fun n hn => (List.mergeSort_perm _ _).mem_iff.mp hn)

theorem take_append_len {α} (a b c : List α) (n : Nat) (h : n = a.length) : (a ++ b ++ c).take n = a := by
  subst h; rw [List.append_assoc]; exact List.take_left ..

theorem funcSignature_pos (ps : List Param) :
    (funcSignature ps).pos = ps.filter fun p => !p.variadic && p.positional := by
  unfold Sig.pos funcSignature
  exact take_append_len _ _ _ _ rfl

theorem funcSignature_named (ps : List Param) :
    (funcSignature ps).named = ((((ps.filter (·.named)).map (·.name)).mergeSort nameLe).filterMap
      (fun n => (ps.filter (·.named)).reverse.find? (fun p => p.name = n))) := by
  unfold Sig.named funcSignature
  simp only [List.append_assoc, List.drop_left]
  rw [← named_specs_length, List.take_left]

theorem funcSignature_rest (ps : List Param) :
    (funcSignature ps).rest = ps.find? (·.variadic) := by
  unfold Sig.rest funcSignature
  simp only []
  cases h : ps.find? (·.variadic) with
  | none => simp
  | some r =>
    simp only [Option.isSome_some, if_true, Option.toList_some]
    rw [← named_specs_length, ← List.length_append, List.getElem?_append_right (Nat.le_refl _)]
    simp

theorem funcSignature_wf (ps : List Param) : (funcSignature ps).WF := by
  refine ⟨?_, ?_⟩
  · rw [funcSignature_pos]; rfl
  · intro h; rw [funcSignature_rest]; exact h

theorem sigOf_pos (ps : List ClosureParam) : (sigOf ps).pos = (ps.filter (·.isPos)).map (·.spec) := by
  unfold sigOf; rw [funcSignature_pos, filter_pos]

theorem sigOf_posSize (ps : List ClosureParam) : (sigOf ps).posSize = posCount ps := by
  rw [← (funcSignature_wf _).posLen (s := sigOf ps), sigOf_pos]; simp [posCount]

theorem sigOf_rest (ps : List ClosureParam) :
    (sigOf ps).rest = (ps.find? (·.isSink)).map (·.spec) := by
  unfold sigOf; rw [funcSignature_rest, find_sink]

theorem posCount_append (a b : List ClosureParam) : posCount (a ++ b) = posCount a + posCount b := by
  simp [posCount]

theorem posCount_cons (q : ClosureParam) (b : List ClosureParam) :
    posCount (q :: b) = (if q.isPos then 1 else 0) + posCount b := by
  unfold posCount
  cases h : q.isPos <;> simp [h]; omega

theorem posCount_zero {b : List ClosureParam} : posCount b = 0 ↔ ∀ q ∈ b, q.isPos = false := by
  unfold posCount
  simp [List.length_eq_zero_iff, List.filter_eq_nil_iff]

theorem filter_pos_get (a b : List ClosureParam) (x : Name) :
    ((a ++ .pos x :: b).filter (·.isPos))[posCount a]? = some (.pos x) := by
  rw [List.filter_append, List.filter_cons_of_pos (by rfl)]
  unfold posCount
  rw [List.getElem?_append_right (Nat.le_refl _)]
  simp

/-- The sink stands behind the positional parameters: what the analysis finds is what Typst does. -/
theorem matchAt_bound {ps : List ClosureParam} (hl : SinkLast ps) (h1 : OneSink ps) {n i : Nat}
    {q : ClosureParam} (hb : Bound ps n i q) : matchAt (sigOf ps) i = some (q.kind, q.spec) := by
  unfold matchAt
  rw [sigOf_posSize, sigOf_pos, sigOf_rest]
  cases hb with
  | @front a b x hp ha _ =>
    have hlt : posCount a < posCount ps := by
      rw [hp, posCount_append, posCount_cons]; simp [ClosureParam.isPos]; omega
    simp only [hlt, if_true]
    rw [List.getElem?_map, hp, filter_pos_get]
    rfl
  | @back a b x hp ha _ =>
    obtain ⟨q, hq, hsink⟩ := ha
    obtain ⟨a1, a2, ha'⟩ := List.append_of_mem hq
    cases q with
    | pos => cases hsink
    | named => cases hsink
    | sink y =>
      have := hl a1 y (a2 ++ .pos x :: b) (by rw [hp, ha']; simp) (.pos x) (by simp)
      cases this
  | @sink a b x _ hp hle hlt =>
    have h0 : posCount b = 0 := posCount_zero.mpr (hl a x b hp)
    have he : posCount ps = posCount a := by
      rw [hp, posCount_append, posCount_cons, h0]; simp [ClosureParam.isPos]
    have hn : ¬ i < posCount ps := by omega
    simp only [hn, if_false]
    have hf : ps.find? (·.isSink) = some (.sink x) := by
      rw [hp, List.find?_append]
      have : a.find? (·.isSink) = none := by
        rw [List.find?_eq_none]
        intro q hq hs
        unfold OneSink at h1
        rw [hp, List.filter_append, List.length_append, List.filter_cons_of_pos (by rfl)] at h1
        have : 0 < (a.filter (·.isSink)).length := List.length_pos_of_mem (List.mem_filter.mpr ⟨hq, hs⟩)
        simp at h1; omega
      rw [this]; rfl
    rw [hf]
    rfl

/-- An argument beyond all parameters, or of a function without a sink. -/
theorem matchAt_unbound {ps : List ClosureParam} (hl : SinkLast ps) {n i : Nat} (hi : i < n)
    (hb : ∀ q, ¬ Bound ps n i q) : matchAt (sigOf ps) i = none := by
  unfold matchAt
  rw [sigOf_posSize, sigOf_pos, sigOf_rest]
  by_cases hlt : i < posCount ps
  · exfalso
    -- the positional parameter number `i`
    have : ∀ (l : List ClosureParam) (i : Nat), i < posCount l →
        ∃ a x b, l = a ++ .pos x :: b ∧ posCount a = i := by
      intro l
      induction l with
      | nil => intro i h; cases h
      | cons p l ih =>
        intro i h
        cases p with
        | pos y =>
          cases i with
          | zero => exact ⟨[], y, l, rfl, rfl⟩
          | succ i =>
            rw [posCount_cons] at h
            obtain ⟨a, x, b, h1, h2⟩ := ih i (by simp [ClosureParam.isPos] at h; omega)
            exact ⟨.pos y :: a, x, b, by rw [h1]; rfl, by rw [posCount_cons, h2]; simp [ClosureParam.isPos]; omega⟩
        | named y =>
          rw [posCount_cons] at h
          obtain ⟨a, x, b, h1, h2⟩ := ih i (by simp [ClosureParam.isPos] at h; omega)
          exact ⟨.named y :: a, x, b, by rw [h1]; rfl, by rw [posCount_cons, h2]; simp [ClosureParam.isPos]⟩
        | sink y =>
          rw [posCount_cons] at h
          obtain ⟨a, x, b, h1, h2⟩ := ih i (by simp [ClosureParam.isPos] at h; omega)
          exact ⟨.sink y :: a, x, b, by rw [h1]; rfl, by rw [posCount_cons, h2]; simp [ClosureParam.isPos]⟩
    obtain ⟨a, x, b, h1, h2⟩ := this ps i hlt
    subst h2
    refine hb (.pos x) (.front h1 ?_ hi)
    intro q hq
    cases hs : q.isSink with
    | false => rfl
    | true =>
      exfalso
      obtain ⟨a1, a2, ha'⟩ := List.append_of_mem hq
      cases q with
      | pos => cases hs
      | named => cases hs
      | sink y =>
        have := hl a1 y (a2 ++ .pos x :: b) (by rw [h1, ha']; simp) (.pos x) (by simp)
        cases this
  · simp only [hlt, if_false]
    cases hf : ps.find? (·.isSink) with
    | none => rfl
    | some q =>
      exfalso
      obtain ⟨hq, a, b, hp, _⟩ := List.find?_eq_some_iff_append.mp hf
      cases q with
      | pos => cases hq
      | named => cases hq
      | sink x =>
        have h0 : posCount b = 0 := posCount_zero.mpr (hl a x b hp)
        have he : posCount ps = posCount a := by
          rw [hp, posCount_append, posCount_cons, h0]; simp [ClosureParam.isPos]
        exact hb (.sink x) (.sink hp (by omega) (by omega))

/-- Named parameters are found by their names. -/
theorem getNamed_closure (ps : List ClosureParam) (x : Name) :
    (.named x ∈ ps → ∃ p, (sigOf ps).getNamed x = some p ∧ p.name = x) ∧
    (.named x ∉ ps → (sigOf ps).getNamed x = none) := by
  have hmem : .named x ∈ ps ↔ x ∈ (((ps.map (·.spec)).filter (·.named)).map (·.name)) := by
    simp only [List.mem_map, List.mem_filter]
    constructor
    · intro h; exact ⟨_, ⟨⟨_, h, rfl⟩, rfl⟩, rfl⟩
    · rintro ⟨p, ⟨⟨q, hq, rfl⟩, hn⟩, hx⟩
      cases q with
      | pos => cases hn
      | sink => cases hn
      | named y => simp only [ClosureParam.spec] at hx; subst hx; exact hq
  have hnames : (sigOf ps).names =
    ((((ps.map (·.spec)).filter (·.named)).map (·.name)).mergeSort nameLe) := rfl
  have hmem' : .named x ∈ ps ↔ x ∈ (sigOf ps).names := by
    rw [hnames, (List.mergeSort_perm _ _).mem_iff]; exact hmem
  constructor
  · intro h
    have hx := hmem'.mp h
    have hxi : ∃ i, (sigOf ps).names.idxOf? x = some i ∧ (sigOf ps).names[i]? = some x := by
      generalize (sigOf ps).names = l at hx
      induction l with
      | nil => cases hx
      | cons a l ih =>
        rw [List.idxOf?_cons]
        by_cases ha : (a == x) = true
        · exact ⟨0, by simp [ha], by simp at ha; simp [ha]⟩
        · have ha' : a ≠ x := by simpa using ha
          obtain ⟨i, h1, h2⟩ := ih (by
            rcases List.mem_cons.mp hx with h | h
            · exact absurd h.symm ha'
            · exact h)
          exact ⟨i + 1, by simp [ha, h1], by simpa using h2⟩
    obtain ⟨i, h1, h2⟩ := hxi
    have hsome : ∀ (l : List Name), (∀ n ∈ l, n ∈ (((ps.map (·.spec)).filter (·.named)).map (·.name))) →
        ∀ i : Nat, l[i]? = some x → ∃ p : Param, (l.filterMap (fun n =>
          (((ps.map (·.spec)).filter (·.named))).reverse.find? (fun p => p.name = n)))[i]? = some p ∧
          p.name = x := by
      intro l
      induction l with
      | nil => intro _ i h; simp at h
      | cons n l ih =>
        intro hl i hi
        obtain ⟨p, hp, hn⟩ := List.mem_map.mp (hl n (List.mem_cons_self ..))
        have : ((((ps.map (·.spec)).filter (·.named))).reverse.find? (fun p => p.name = n)).isSome = true := by
          rw [List.find?_isSome]
          exact ⟨p, List.mem_reverse.mpr hp, by simp [hn]⟩
        obtain ⟨q, hq⟩ := Option.isSome_iff_exists.mp this
        rw [List.filterMap_cons_some (by exact hq)]
        cases i with
        | zero =>
          simp only [List.getElem?_cons_zero, Option.some.injEq] at hi
          subst hi
          exact ⟨q, rfl, by simpa using List.find?_some hq⟩
        | succ i =>
          simp only [List.getElem?_cons_succ] at hi ⊢
          exact ih (fun m hm => hl m (List.mem_cons_of_mem _ hm)) i hi
    obtain ⟨p, hp, hn⟩ := hsome (sigOf ps).names
      (fun n hn => by rw [hnames, (List.mergeSort_perm _ _).mem_iff] at hn; exact hn) i h2
    refine ⟨p, ?_, hn⟩
    unfold Sig.getNamed
    rw [h1, Option.bind_some]
    have := funcSignature_named (ps.map ClosureParam.spec)
    rw [show sigOf ps = funcSignature (ps.map ClosureParam.spec) from rfl, this]
    exact hp
  · intro h
    have hx : x ∉ (sigOf ps).names := fun hh => h (hmem'.mpr hh)
    unfold Sig.getNamed
    rw [List.idxOf?_eq_none_iff.mpr (by simpa using hx)]
    rfl

/-- `outAt` from outside: the child stands between the parentheses or not. -/
theorem outAt_iff (args : List Arg) : ∀ (out : Bool) (k : Nat), k ≤ args.length →
    (outAt out args k = false ↔
      Between args k ∨ (out = false ∧ ∀ j : Nat, j < k → args[j]? ≠ some .rparen)) := by
  induction args with
  | nil =>
    intro out k hk
    have : k = 0 := by simpa using hk
    subst this
    have hb : ¬ Between [] 0 := fun ⟨i, h, _⟩ => by omega
    simp [outAt, hb]
  | cons a as ih =>
    intro out k hk
    cases k with
    | zero =>
      have hb : ¬ Between (a :: as) 0 := fun ⟨i, h, _⟩ => by omega
      simp [outAt, hb]
    | succ k =>
      have hk' : k ≤ as.length := by simpa using hk
      have tail : ∀ (_ : a ≠ .lparen), (Between (a :: as) (k + 1) ↔ Between as k) := by
        intro ha
        constructor
        · rintro ⟨i, h1, h2, h3⟩
          cases i with
          | zero => simp at h2; exact absurd h2 ha
          | succ i => exact ⟨i, by omega, by simpa using h2, fun j hj1 hj2 => by
              simpa using h3 (j + 1) (by omega) (by omega)⟩
        · rintro ⟨i, h1, h2, h3⟩
          refine ⟨i + 1, by omega, by simpa using h2, fun j hj1 hj2 => ?_⟩
          cases j with
          | zero => omega
          | succ j => simpa using h3 j (by omega) (by omega)
      have none_ : ∀ (_ : a ≠ .rparen), ((∀ j : Nat, j < k + 1 → (a :: as)[j]? ≠ some .rparen) ↔
          ∀ j : Nat, j < k → as[j]? ≠ some .rparen) := by
        intro ha
        constructor
        · intro h j hj; simpa using h (j + 1) (by omega)
        · intro h j hj
          cases j with
          | zero => simpa using ha
          | succ j => simpa using h j (by omega)
      cases a with
      | lparen =>
        simp only [outAt]
        rw [ih false k hk']
        constructor
        · rintro (h | ⟨_, h⟩)
          · obtain ⟨i, h1, h2, h3⟩ := h
            refine Or.inl ⟨i + 1, by omega, by simpa using h2, fun j hj1 hj2 => ?_⟩
            cases j with
            | zero => omega
            | succ j => simpa using h3 j (by omega) (by omega)
          · refine Or.inl ⟨0, by omega, rfl, fun j hj1 hj2 => ?_⟩
            cases j with
            | zero => omega
            | succ j => simpa using h j (by omega)
        · rintro (h | ⟨_, h⟩)
          · obtain ⟨i, h1, h2, h3⟩ := h
            cases i with
            | zero =>
              exact Or.inr ⟨rfl, fun j hj => by simpa using h3 (j + 1) (by omega) (by omega)⟩
            | succ i => exact Or.inl ⟨i, by omega, by simpa using h2, fun j hj1 hj2 => by
              simpa using h3 (j + 1) (by omega) (by omega)⟩
          · exact Or.inr ⟨rfl, (none_ (by simp)).mp h⟩
      | rparen =>
        simp only [outAt]
        rw [ih true k hk', tail (by simp)]
        constructor
        · rintro (h | ⟨h, _⟩)
          · exact Or.inl h
          · cases h
        · rintro (h | ⟨_, h⟩)
          · exact Or.inl h
          · exact absurd rfl (h 0 (by omega))
      | other | pos | named | spread =>
        simp only [outAt]
        rw [ih out k hk', tail (by simp), none_ (by simp)]

end Tinymist.CallArgs
