import Verif.Spec.DiagConvert
import Verif.Props.Position

/-!
# C49: diagnostics keep order and are grouped under the right file
-/

namespace Tinymist.DiagConvert

open Position (Text len8 Encoding Pos Plain)

variable {F U : Type}

theorem refine_span (w : World F U) (d : Diag F) : (refine w d).span = d.span ∧ (refine w d).trace = d.trace := by
  unfold refine outOfRoot deprecation
  split <;> split <;> simp

theorem refine_severity (w : World F U) (d : Diag F) :
    (refine w d).severity = d.severity ∧ (refine w d).message = d.message := by
  unfold refine outOfRoot deprecation
  split <;> split <;> simp

theorem spanId_refine (w : World F U) (d : Diag F) : spanId w (refine w d) = spanId w d := by
  obtain ⟨h1, h2⟩ := refine_span w d
  unfold spanId
  rw [h1, h2]

/-- The place found is the place. -/
theorem spanId_place (w : World F U) (d : Diag F) (f : F) (n : Option Nat) :
    Place w d f n ↔ spanId w d = (f, n.map (fun n => (f, n))) := by
  have find_none : ∀ (l : List (Span F × Text)), (∀ t ∈ l, t.1 = none) →
      ∀ rest, (l.map (·.1) ++ rest).find? Option.isSome = rest.find? Option.isSome := by
    intro l
    induction l with
    | nil => intro _ rest; rfl
    | cons t l ih =>
      intro h rest
      have ht := h t (by simp)
      simp only [List.map_cons, List.cons_append, List.find?_cons, ht, Option.isSome_none]
      exact ih (fun t ht => h t (by simp [ht])) rest
  constructor
  · intro h
    cases h with
    | span f n h => simp [spanId, h]
    | trace f n pre post m h0 h hp =>
      unfold spanId
      rw [h0, h, List.map_append, List.find?_cons_of_neg (by simp), find_none pre hp]
      simp
    | main h0 h =>
      unfold spanId
      have := find_none d.trace h []
      rw [List.append_nil] at this
      rw [h0, List.find?_cons_of_neg (by simp), this]
      simp
  · intro h
    unfold spanId at h
    have split_first : ∀ (l : List (Span F × Text)) x, (l.map (·.1)).find? Option.isSome = some x →
        ∃ pre post m, l = pre ++ (x, m) :: post ∧ ∀ t ∈ pre, t.1 = none := by
      intro l x
      induction l with
      | nil => intro h; cases h
      | cons t l ih =>
        intro h
        rw [List.map_cons, List.find?_cons] at h
        split at h
        · cases h; exact ⟨[], l, t.2, rfl, by simp⟩
        · rename_i hn
          obtain ⟨pre, post, m, e, hp⟩ := ih h
          refine ⟨t :: pre, post, m, by rw [e]; rfl, ?_⟩
          intro u hu
          rw [List.mem_cons] at hu
          rcases hu with rfl | hu
          · simpa using hn
          · exact hp u hu
    cases hs : d.span with
    | some x =>
      obtain ⟨g, k⟩ := x
      rw [hs] at h
      simp at h
      obtain ⟨rfl, h⟩ := h
      cases n with
      | none => simp at h
      | some n => simp at h; subst h; exact .span _ _ hs
    | none =>
      rw [hs, List.find?_cons_of_neg (by simp)] at h
      cases hf : (d.trace.map (·.1)).find? Option.isSome with
      | none =>
        rw [hf] at h
        simp at h
        obtain ⟨rfl, h⟩ := h
        cases n with
        | some n => simp at h
        | none =>
          refine .main hs ?_
          intro t ht
          rw [List.find?_eq_none] at hf
          have := hf t.1 (List.mem_map.mpr ⟨t, ht, rfl⟩)
          simpa using this
      | some x =>
        rw [hf] at h
        obtain ⟨pre, post, m, e, hp⟩ := split_first _ _ hf
        cases x with
        | none => have := List.find?_some hf; simp at this
        | some x =>
          obtain ⟨g, k⟩ := x
          simp at h
          obtain ⟨rfl, h⟩ := h
          cases n with
          | none => simp at h
          | some n => simp at h; subst h; exact .trace _ _ pre post m hs e hp

/-- A diagnostic is converted iff it can be shown, and for the file in which it can be. -/
theorem convert_iff (enc : Encoding) (w : World F U) (d : Diag F) (u : U) :
    (∃ x, convert enc w d = some (u, x)) ↔ ShownIn w d u := by
  unfold convert
  rw [spanId_refine]
  constructor
  · rintro ⟨x, hx⟩
    simp only [Option.bind_eq_bind, Option.bind_eq_some_iff] at hx
    obtain ⟨u', hu, s, hs, hx⟩ := hx
    simp only [Option.pure_def, Option.some.injEq, Prod.mk.injEq] at hx
    obtain ⟨rfl, _⟩ := hx
    refine ⟨(spanId w d).1, (spanId w d).2.map (·.2), (spanId_place w d _ _).mpr ?_, hu, by simp [hs]⟩
    unfold spanId
    split <;> simp
  · rintro ⟨f, n, hp, hu, hs⟩
    rw [spanId_place] at hp
    rw [hp]
    cases hs' : w.source f with
    | none => rw [hs'] at hs; cases hs
    | some s => simp [hu, hs']

variable [DecidableEq U]

theorem get_push (m : DiagMap U) (u v : U) (d : LspDiag U) :
    get (push m u d) v = get m v ++ if u = v then [d] else [] := by
  induction m with
  | nil =>
    by_cases h : u = v
    · simp [push, get, h]
    · simp [push, get, h]
  | cons x m ih =>
    obtain ⟨k, ds⟩ := x
    unfold push
    by_cases hk : k = u
    · subst hk
      rw [if_pos rfl]
      by_cases h : k = v
      · simp [get, h]
      · simp [get, h]
    · rw [if_neg hk]
      by_cases h : k = v
      · subst h
        simp [get, Ne.symm hk]
      · simp only [get, List.find?_cons, h, decide_false] at ih ⊢
        exact ih

theorem get_convertAll (enc : Encoding) (w : World F U) (m : DiagMap U) (ds : List (Diag F)) (u : U) :
    get (convertAll enc w m ds) u =
      get m u ++ (ds.filterMap (convert enc w)).filterMap (fun x => if x.1 = u then some x.2 else none) := by
  unfold convertAll
  induction ds generalizing m with
  | nil => simp
  | cons d ds ih =>
    rw [List.foldl_cons, ih, List.filterMap_cons]
    unfold handle
    cases hc : convert enc w d with
    | none => rfl
    | some x =>
      obtain ⟨v, y⟩ := x
      simp only
      rw [get_push, List.filterMap_cons]
      by_cases h : v = u <;> simp [h]

/-- **C49.** What the editor gets for a file: there is a diagnostic for each of the compiler's that can be shown in that
file, in the compiler's order, and no other. -/
theorem grouped_in_order (enc : Encoding) (w : World F U) (ds : List (Diag F)) (u : U) :
    ∃ picked : List (Diag F × LspDiag U),
      get (convertAll enc w [] ds) u = picked.map (·.2) ∧ (picked.map (·.1)).Sublist ds ∧
      (∀ p ∈ picked, convert enc w p.1 = some (u, p.2)) ∧
      ∃ rest : List (Diag F), (∀ d ∈ rest, ¬ ShownIn w d u) ∧ (picked.map (·.1) ++ rest).Perm ds := by
  rw [get_convertAll]
  induction ds with
  | nil => exact ⟨[], by simp [get], .slnil, by simp, [], by simp, by simp⟩
  | cons d ds ih =>
    obtain ⟨picked, h1, h2, h3, rest, h4, h5⟩ := ih
    simp only [get, List.find?_nil, Option.map_none, Option.getD_none, List.nil_append] at h1 ⊢
    by_cases hd : ∃ x, convert enc w d = some (u, x)
    · obtain ⟨x, hx⟩ := hd
      refine ⟨(d, x) :: picked, ?_, h2.cons_cons d, ?_, rest, h4, h5.cons d⟩
      · simp [hx, h1]
      · intro p hp
        rw [List.mem_cons] at hp
        rcases hp with rfl | hp
        · exact hx
        · exact h3 p hp
    · refine ⟨picked, ?_, h2.cons d, h3, d :: rest, ?_, ?_⟩
      · rw [← h1, List.filterMap_cons]
        cases hc : convert enc w d with
        | none => rfl
        | some x =>
          obtain ⟨v, y⟩ := x
          have : v ≠ u := fun e => hd ⟨y, by rw [hc, e]⟩
          simp [this]
      · intro e he
        rw [List.mem_cons] at he
        rcases he with rfl | he
        · rw [← convert_iff enc]; exact hd
        · exact h4 e he
      · exact List.perm_middle.trans (h5.cons d)

/-- **C49, order between them.** Diagnostics that both belong to a file stay in order: those of a list come before those
of what follows it. -/
theorem order_kept (enc : Encoding) (w : World F U) (ds ds' : List (Diag F)) (u : U) :
    get (convertAll enc w [] (ds ++ ds')) u = get (convertAll enc w [] ds) u ++ get (convertAll enc w [] ds') u := by
  have h : get ([] : DiagMap U) u = [] := rfl
  simp only [get_convertAll, h, List.nil_append, List.filterMap_append]

/-- **C49, one by one.** Each diagnostic that can be shown in a file adds one to it, and any other adds none. -/
theorem each_counts_once (enc : Encoding) (w : World F U) (d : Diag F) (u : U) :
    (ShownIn w d u → (get (convertAll enc w [] [d]) u).length = 1) ∧
      (¬ ShownIn w d u → get (convertAll enc w [] [d]) u = []) := by
  rw [← convert_iff enc w d u, get_convertAll]
  constructor
  · rintro ⟨x, hx⟩; simp [hx, get]
  · intro h
    cases hc : convert enc w d with
    | none => simp [hc, get]
    | some x =>
      obtain ⟨v, y⟩ := x
      have : v ≠ u := fun e => h ⟨y, by rw [hc, e]⟩
      simp [hc, this, get]

omit [DecidableEq U] in
theorem message_full (d : Diag F) : message d = fullMessage d.message d.hints := by
  unfold message
  generalize d.message = m
  generalize d.hints = hs
  induction hs generalizing m with
  | nil => rfl
  | cons h hs ih => simp only [List.foldl_cons, fullMessage]; exact ih _

omit [DecidableEq U] in
/-- **C49, what is shown.** The severity is the compiler's; the message is the compiler's with the hints that are left
after refinement. -/
theorem shown_as_is (enc : Encoding) (w : World F U) (d : Diag F) (u : U) (x : LspDiag U)
    (h : convert enc w d = some (u, x)) :
    x.severity = d.severity ∧ x.message = fullMessage d.message (refine w d).hints := by
  unfold convert at h
  simp only [Option.bind_eq_bind, Option.bind_eq_some_iff] at h
  obtain ⟨u', hu, s, hs, h⟩ := h
  simp only [Option.pure_def, Option.some.injEq, Prod.mk.injEq] at h
  obtain ⟨_, rfl⟩ := h
  obtain ⟨h1, h2⟩ := refine_severity w d
  exact ⟨h1, by rw [message_full, h2]⟩

omit [DecidableEq U] in
/-- **C49, where.** The range is that of the node at the diagnostic's place, as the client counts; without such a node it
is the start of the file. -/
theorem shown_at_place (enc : Encoding) (w : World F U) (d : Diag F) (u : U) (x : LspDiag U)
    (h : convert enc w d = some (u, x)) (f : F) (n : Option Nat) (hp : Place w d f n) (s : Source)
    (hs : w.source f = some s) :
    (∀ k pre mid post, n = some k → s.find k = some (pre, mid) → s.text = pre ++ mid ++ post → Plain enc s.text →
      '\r' ∉ s.text → ∃ r, x.range = some r ∧ Covers enc s.text pre mid post r) ∧
    ((∀ k, n = some k → s.find k = none) → x.range = some ((0, 0), (0, 0))) := by
  unfold convert at h
  rw [spanId_refine, (spanId_place w d f n).mp hp] at h
  simp only [Option.bind_eq_bind, Option.bind_eq_some_iff, hs] at h
  obtain ⟨u', hu, s', hs', h⟩ := h
  cases hs'
  simp only [Option.pure_def, Option.some.injEq, Prod.mk.injEq] at h
  obtain ⟨_, rfl⟩ := h
  constructor
  · intro k pre mid post hn hf ht hpl hcr
    subst hn
    have hnl : ∀ (p : Text), (∀ c ∈ p, c ∈ s.text) → ∀ q : Text, ¬ (p.getLast? = some '\r' ∧ q.head? = some '\n') :=
      fun p hp q hq => hcr (hp _ (List.mem_of_getLast? hq.1))
    obtain ⟨l1, c1, p1, q1⟩ := Position.reported_position_is_meant enc s.text pre (mid ++ post) (by rw [ht]; simp) hpl
      (hnl pre (by intro c hc; rw [ht]; simp [hc]) _)
    obtain ⟨l2, c2, p2, q2⟩ := Position.reported_position_is_meant enc s.text (pre ++ mid) post ht hpl
      (hnl _ (by intro c hc; rw [ht]; exact List.mem_append_left _ hc) _)
    refine ⟨((l1, c1), (l2, c2)), ?_, ht, q1, q2⟩
    simp [range, hf, nodeRange, p1, p2]
  · intro hn
    cases n with
    | none => rfl
    | some k => simp [range, hn k rfl]

omit [DecidableEq U] in
/-- **C49, what cannot be shown.** A diagnostic without a place is lost when the main file cannot be read, so that the
missing main file itself is not reported. -/
theorem missing_main_unreported [DecidableEq U] (enc : Encoding) (w : World F U) (hm : w.source w.main = none) (d : Diag F)
    (h0 : d.span = none) (h : ∀ t ∈ d.trace, t.1 = none) (u : U) : get (convertAll enc w [] [d]) u = [] := by
  apply (each_counts_once enc w d u).2
  rintro ⟨f, n, hp, hu, hs⟩
  have e := (spanId_place w d f n).mp hp
  rw [(spanId_place w d w.main none).mp (.main h0 h)] at e
  have e1 : w.main = f := congrArg Prod.fst e
  rw [← e1, hm] at hs
  cases hs

/-- A world with two files. -/
def sample : World Nat Nat :=
  ⟨fun f => if f < 2 then some (f + 10) else none, fun f => if f < 2 then some ⟨"ab\ncd".toList, fun n => if n = 1 then some ("ab\n".toList, "cd".toList) else none⟩ else none, 0,
    fun _ => false, []⟩

/-- Meets the hypotheses: three diagnostics for two files, one of them placed by its trace, and one for a file that is
not there. -/
example :
    let ds : List (Diag Nat) := [⟨.error, some (1, 1), "x".toList, [], ["h".toList]⟩, ⟨.warning, none, "y".toList, [(some (0, 1), [])], []⟩,
      ⟨.error, some (5, 1), "lost".toList, [], []⟩, ⟨.error, some (1, 2), "z".toList, [], []⟩]
    (get (convertAll .utf16 sample [] ds) 11).map (fun d => (d.range, d.message)) =
        [(some ((1, 0), (1, 2)), "x\nHint: h".toList), (some ((0, 0), (0, 0)), "z".toList)] ∧
      (get (convertAll .utf16 sample [] ds) 10).map (fun d => d.message) = ["y".toList] := by decide +kernel

/-! ## Hints, related places and the files of the lints -/

theorem contains_iff (pat s : Text) : contains pat s = true ↔ Occurs pat s := by
  induction s with
  | nil =>
    simp only [contains, List.isEmpty_iff]
    constructor
    · rintro rfl; exact ⟨[], [], rfl⟩
    · rintro ⟨a, b, h⟩
      have := congrArg List.length h
      simp only [List.length_nil, List.length_append] at this
      exact List.length_eq_zero_iff.mp (by omega)
  | cons c s ih =>
    simp only [contains, Bool.or_eq_true, ih, List.isPrefixOf_iff_prefix]
    constructor
    · rintro (⟨b, h⟩ | ⟨a, b, h⟩)
      · exact ⟨[], b, by simp [h]⟩
      · exact ⟨c :: a, b, by simp [h]⟩
    · rintro ⟨a, b, h⟩
      cases a with
      | nil => exact .inl ⟨b, by simpa using h.symm⟩
      | cons x a =>
        simp only [List.cons_append, List.cons.injEq] at h
        exact .inr ⟨a, b, h.2⟩

theorem refine_hints (w : World F U) (d : Diag F) :
    (OutOfRoot w d → (refine w d).hints = [outOfRootAdvice]) ∧ (¬ OutOfRoot w d → (refine w d).hints = allHints w d) := by
  have e : (deprecation w d).message = d.message ∧ (deprecation w d).hints = allHints w d := by
    unfold deprecation allHints
    split <;> simp
  have hc : (contains outOfRootMessage (deprecation w d).message && (deprecation w d).hints.any (contains outOfRootHint)) = true ↔
      OutOfRoot w d := by
    rw [Bool.and_eq_true, contains_iff, List.any_eq_true, e.1, e.2]
    simp only [contains_iff]
    rfl
  unfold refine outOfRoot
  constructor
  · intro h; rw [if_pos (hc.mpr h)]
  · intro h; rw [if_neg (fun hh => h (hc.mp hh))]; exact e.2

/-- **C49, the hints.** The message carries every hint of the compiler, and the one about older versions if it applies;
only for a file outside of the root one advice takes their place. -/
theorem hints_shown (enc : Encoding) (w : World F U) (d : Diag F) (u : U) (x : LspDiag U)
    (h : convert enc w d = some (u, x)) :
    (¬ OutOfRoot w d → x.message = fullMessage d.message (allHints w d)) ∧
    (OutOfRoot w d → x.message = fullMessage d.message ["Cannot read file outside of project root.".toList]) := by
  rw [(shown_as_is enc w d u x h).2]
  exact ⟨fun hh => by rw [(refine_hints w d).2 hh], fun hh => by rw [(refine_hints w d).1 hh]; rfl⟩

/-- **C49, the trace.** A diagnostic without a trace has no related places; one with a trace has, in order, one for each
trace point that can be shown, in the file and with the message of the point and over its node. -/
theorem trace_shown (enc : Encoding) (w : World F U) (d : Diag F) (u : U) (x : LspDiag U)
    (h : convert enc w d = some (u, x)) :
    (d.trace = [] → x.related = none) ∧
    (d.trace ≠ [] → ∃ f, x.related = some (d.trace.filterMap f) ∧
      ∀ t, ((f t).isSome = true ↔ ∃ v s node, PointAt w t v s node) ∧
        ∀ r, f t = some r → ∃ v s node, PointAt w t v s node ∧ r.uri = v ∧ r.message = t.2 ∧
          ∀ post, s.text = node.1 ++ node.2 ++ post → Plain enc s.text → '\r' ∉ s.text →
            ∃ g, r.range = some g ∧ Covers enc s.text node.1 node.2 post g) := by
  unfold convert at h
  simp only [Option.bind_eq_bind, Option.bind_eq_some_iff] at h
  obtain ⟨u', hu, s, hs, h⟩ := h
  simp only [Option.pure_def, Option.some.injEq, Prod.mk.injEq] at h
  obtain ⟨_, rfl⟩ := h
  simp only [(refine_span w d).2]
  refine ⟨fun ht => by simp [ht], fun ht => ⟨related enc w, by simp [ht], fun t => ?_⟩⟩
  have key : ∀ r, related enc w t = some r ↔ ∃ v s node, PointAt w t v s node ∧ r = ⟨v, nodeRange enc s node, t.2⟩ := by
    intro r
    unfold related
    simp only [Option.bind_eq_bind, Option.bind_eq_some_iff, Option.pure_def, Option.some.injEq]
    constructor
    · rintro ⟨⟨f, n⟩, h1, v, h2, s, h3, node, h4, rfl⟩
      exact ⟨v, s, node, ⟨f, n, h1, h2, h3, h4⟩, rfl⟩
    · rintro ⟨v, s, node, ⟨f, n, h1, h2, h3, h4⟩, rfl⟩
      exact ⟨(f, n), h1, v, h2, s, h3, node, h4, rfl⟩
  refine ⟨?_, ?_⟩
  · rw [Option.isSome_iff_exists]
    constructor
    · rintro ⟨r, hr⟩
      obtain ⟨v, s, node, hp, _⟩ := (key r).mp hr
      exact ⟨v, s, node, hp⟩
    · rintro ⟨v, s, node, hp⟩
      exact ⟨_, (key _).mpr ⟨v, s, node, hp, rfl⟩⟩
  · intro r hr
    obtain ⟨v, s, node, hp, rfl⟩ := (key r).mp hr
    refine ⟨v, s, node, hp, rfl, rfl, fun post ht hpl hcr => ?_⟩
    have hnl : ∀ (p : Text), (∀ c ∈ p, c ∈ s.text) → ∀ q : Text, ¬ (p.getLast? = some '\r' ∧ q.head? = some '\n') :=
      fun p hp q hq => hcr (hp _ (List.mem_of_getLast? hq.1))
    obtain ⟨l1, c1, p1, q1⟩ := Position.reported_position_is_meant enc s.text node.1 (node.2 ++ post) (by rw [ht]; simp) hpl
      (hnl node.1 (by intro c hc; rw [ht]; simp [hc]) _)
    obtain ⟨l2, c2, p2, q2⟩ := Position.reported_position_is_meant enc s.text (node.1 ++ node.2) post ht hpl
      (hnl _ (by intro c hc; rw [ht]; exact List.mem_append_left _ hc) _)
    refine ⟨((l1, c1), (l2, c2)), ?_, ht, q1, q2⟩
    simp [nodeRange, p1, p2]

variable [DecidableEq U]

/-- **C49, the lints.** The map of the lints is that of the lints of the files the document depends on that are not of a
package and can be read. -/
theorem lints_of_files (enc : Encoding) (w : World F U) (isPackage : F → Bool) (lint : F → List (Diag F)) (deps : List F)
    (u : U) :
    get (check enc w isPackage lint deps) u =
      get (convertAll enc w [] ((deps.filter (fun f => !isPackage f && (w.source f).isSome)).flatMap lint)) u := by
  have key : ∀ m : DiagMap U, deps.foldl (fun m f =>
      if isPackage f then m else if (w.source f).isNone then m else convertAll enc w m (lint f)) m =
      convertAll enc w m ((deps.filter (fun f => !isPackage f && (w.source f).isSome)).flatMap lint) := by
    induction deps with
    | nil => intro m; rfl
    | cons f deps ih =>
      intro m
      rw [List.foldl_cons, ih, List.filter_cons]
      cases hp : isPackage f <;> cases hs : w.source f <;> simp [convertAll, List.foldl_append]
  unfold check
  rw [key]

end Tinymist.DiagConvert
