import Verif.Spec.Coverage
import Verif.Lemmas.Util

/-!
# The rewritten program keeps its tokens, and its counters stand where they should
-/

namespace Tinymist.Coverage

/-! ### The worker only appends -/

/-- `w'` is `w` with more written. -/
def Grows (w w' : Worker) : Prop :=
  ∃ o p, w'.out = w.out ++ o ∧ w'.places = w.places ++ p

theorem Grows.refl (w : Worker) : Grows w w := ⟨[], [], by simp, by simp⟩

theorem Grows.trans {a b c : Worker} (h₁ : Grows a b) (h₂ : Grows b c) : Grows a c := by
  obtain ⟨o, p, h1, h2⟩ := h₁
  obtain ⟨o', p', h3, h4⟩ := h₂
  exact ⟨o ++ o', p ++ p', by rw [h3, h1, List.append_assoc], by rw [h4, h2, List.append_assoc]⟩

theorem grows_emit (p : Piece) (w : Worker) : Grows w (emit p w) := ⟨[p], [], rfl, by simp [emit]⟩

theorem grows_copy (t : Bool) (x : String) (w : Worker) : Grows w (copy t x w) := by
  unfold copy; split
  · exact Grows.refl w
  · exact grows_emit _ w

theorem grows_cov (sp : Nat) (k : Kind) (w : Worker) : Grows w (makeCov sp k w) :=
  ⟨[.probe w.places.length], [(sp, k)], rfl, rfl⟩

/-- The counter calls written so far are numbered from zero, in the order they stand in. -/
def Ordered (w : Worker) : Prop := calls w.out = List.range w.places.length

theorem calls_append (a b : List Piece) : calls (a ++ b) = calls a ++ calls b := by
  simp [calls]

theorem copied_append (a b : List Piece) : copied (a ++ b) = copied a ++ copied b := by
  simp [copied]

theorem ordered_emit {p : Piece} {w : Worker} (hp : calls [p] = []) (h : Ordered w) :
    Ordered (emit p w) := by
  unfold Ordered emit
  rw [calls_append, hp, List.append_nil]
  exact h

theorem ordered_copy {t : Bool} {x : String} {w : Worker} (h : Ordered w) :
    Ordered (copy t x w) := by
  unfold copy; split
  · exact h
  · exact ordered_emit rfl h

theorem ordered_cov {sp : Nat} {k : Kind} {w : Worker} (h : Ordered w) :
    Ordered (makeCov sp k w) := by
  unfold Ordered makeCov
  rw [calls_append, h, List.length_append]
  exact List.range_succ.symm

/-- What every step of the worker does: it appends, and keeps the numbering. -/
def Step (f : Worker → Worker) : Prop :=
  (∀ w, Grows w (f w)) ∧ (∀ w, Ordered w → Ordered (f w))

theorem Step.comp {f g : Worker → Worker} (hf : Step f) (hg : Step g) : Step (fun w => g (f w)) :=
  ⟨fun w => (hf.1 w).trans (hg.1 _), fun w h => hg.2 _ (hf.2 w h)⟩

theorem step_emit {p : Piece} (hp : calls [p] = []) : Step (emit p) :=
  ⟨grows_emit p, fun _ => ordered_emit hp⟩

theorem step_copy (t : Bool) (x : String) : Step (copy t x) :=
  ⟨grows_copy t x, fun _ => ordered_copy⟩

theorem step_cov (sp : Nat) (k : Kind) : Step (makeCov sp k) :=
  ⟨grows_cov sp k, fun _ => ordered_cov⟩

theorem step_id : Step (fun w => w) := ⟨Grows.refl, fun _ h => h⟩

/-- The frame of `instrument_block` around anything. -/
def wrap (a b : Nat) (f : Worker → Worker) (w : Worker) : Worker :=
  emit (.glue "}") (makeCov b .closeBrace (emit (.glue "\n") (f
    (makeCov a .openBrace (emit (.glue "{\n") w)))))

theorem step_wrap (a b : Nat) {f : Worker → Worker} (hf : Step f) : Step (wrap a b f) :=
  (((((step_emit rfl).comp (step_cov a .openBrace)).comp hf).comp (step_emit rfl)).comp
    (step_cov b .closeBrace)).comp (step_emit rfl)

theorem block_eq (sp : Nat) (role : Role) (b1 b2 : Nat) (text : String) (cs : List Node) :
    block (.mk sp role b1 b2 text cs) = wrap (firstSpan cs) (lastSpan cs)
      (fun w => visitAll cs (copy (decide (role = .trivia)) text w)) := by
  funext w; rw [block]; rfl

theorem visit_code (sp b1 b2 : Nat) (text : String) (cs : List Node) :
    visit (.mk sp .code b1 b2 text cs) = block (.mk sp .code b1 b2 text cs) := by
  funext w; rw [visit, block]; rfl

mutual
theorem step_visit : ∀ n, Step (visit n)
  | .mk sp role b1 b2 text cs => by
    cases role with
    | code =>
      rw [visit_code, block_eq]
      exact step_wrap _ _ ((step_copy _ _).comp (step_visitAll cs))
    | loop => exact step_bodies b1 0 cs
    | cond => exact step_bodies b1 b2 cs
    | closure => exact step_bodies b1 0 cs
    | showSet => exact step_set b1 cs
    | showFn => exact step_fn b1 cs
    | context =>
      exact (((step_emit (p := .src false "context") rfl).comp (step_emit (p := .glue " (") rfl)).comp
        (step_context b1 cs)).comp (step_emit (p := .glue ")") rfl)
    | trivia => exact (step_copy true text).comp (step_visitAll cs)
    | other => exact (step_copy false text).comp (step_visitAll cs)
theorem step_visitAll : ∀ cs, Step (visitAll cs)
  | [] => step_id
  | c :: cs => (step_visit c).comp (step_visitAll cs)
theorem step_bodies (b1 b2 : Nat) : ∀ cs, Step (bodies b1 b2 cs)
  | [] => step_id
  | c :: cs => by
    by_cases h : b1 = c.span ∨ b2 = c.span
    · have : bodies b1 b2 (c :: cs) = fun w => bodies b1 b2 cs (block c w) := by
        funext w; rw [bodies, if_pos h]
      rw [this]
      exact (step_block c).comp (step_bodies b1 b2 cs)
    · have : bodies b1 b2 (c :: cs) = fun w => bodies b1 b2 cs (visit c w) := by
        funext w; rw [bodies, if_neg h]
      rw [this]
      exact (step_visit c).comp (step_bodies b1 b2 cs)
theorem step_block : ∀ n, Step (block n)
  | .mk sp role b1 b2 text cs => by
    rw [block_eq]
    exact step_wrap _ _ ((step_copy _ _).comp (step_visitAll cs))
theorem step_set (b : Nat) : ∀ cs, Step (transformSet b cs)
  | [] => step_id
  | c :: cs => by
    by_cases h : b = c.span
    · have : transformSet b (c :: cs) = fun w => transformSet b cs (emit (.glue "\n__it; }\n")
          (visit c (makeCov c.span .show (emit (.glue "__it => {") w)))) := by
        funext w; rw [transformSet, if_pos h]
      rw [this]
      exact ((((step_emit rfl).comp (step_cov _ _)).comp (step_visit c)).comp
        (step_emit rfl)).comp (step_set b cs)
    · have : transformSet b (c :: cs) = fun w => transformSet b cs (visit c w) := by
        funext w; rw [transformSet, if_neg h]
      rw [this]
      exact (step_visit c).comp (step_set b cs)
theorem step_fn (b : Nat) : ∀ cs, Step (transformFn b cs)
  | [] => step_id
  | c :: cs => by
    by_cases h : b = c.span
    · have : transformFn b (c :: cs) = fun w => transformFn b cs (emit (.glue showFnTail)
          (makeCov c.span .show (emit (.glue "\n__it => {")
            (visit c (emit (.glue "{\nlet __cov_show_body = ") w))))) := by
        funext w; rw [transformFn, if_pos h]
      rw [this]
      exact (((((step_emit rfl).comp (step_visit c)).comp (step_emit rfl)).comp
        (step_cov _ _)).comp (step_emit rfl)).comp (step_fn b cs)
    · have : transformFn b (c :: cs) = fun w => transformFn b cs (visit c w) := by
        funext w; rw [transformFn, if_neg h]
      rw [this]
      exact (step_visit c).comp (step_fn b cs)
theorem step_context (b : Nat) : ∀ cs, Step (contextBody b cs)
  | [] => step_id
  | c :: cs => by
    by_cases h : b = c.span
    · have : contextBody b (c :: cs) = visit c := by
        funext w; rw [contextBody, if_pos h]
      rw [this]
      exact step_visit c
    · have : contextBody b (c :: cs) = contextBody b cs := by
        funext w; rw [contextBody, if_neg h]
      rw [this]
      exact step_context b cs
end

/-- **Counter calls are numbered in the order they stand in.** Whatever the program, the calls in
the rewritten text are `0, 1, 2, …`, one for each place of the report: no two calls share a place,
none is out of range, and the one at position `k` counts for place `k`. -/
theorem calls_in_order (root : Node) :
    calls (instrument root).out = List.range (instrument root).places.length :=
  (step_visit root).2 ⟨[], []⟩ rfl

/-! ### The tokens are kept -/

theorem copied_emit_glue (t : String) (w : Worker) :
    copied (emit (.glue t) w).out = copied w.out := by
  simp [emit, copied]

theorem copied_cov (sp : Nat) (k : Kind) (w : Worker) :
    copied (makeCov sp k w).out = copied w.out := by
  simp [makeCov, copied]

theorem copied_copy (t : Bool) (x : String) (w : Worker) :
    copied (copy t x w).out = copied w.out ++ (if t = true ∨ x = "" then [] else [x]) := by
  unfold copy
  by_cases hx : x = ""
  · rw [if_pos hx, if_pos (.inr hx), List.append_nil]
  · rw [if_neg hx]
    cases t
    · rw [if_neg (by simp [hx])]; simp [emit, copied]
    · rw [if_pos (.inl rfl)]; simp [emit, copied]

/-- `f` copies exactly the tokens `ts`. -/
def Copies (f : Worker → Worker) (ts : List String) : Prop :=
  ∀ w, copied (f w).out = copied w.out ++ ts

theorem Copies.comp {f g : Worker → Worker} {a b : List String} (hf : Copies f a)
    (hg : Copies g b) : Copies (fun w => g (f w)) (a ++ b) := by
  intro w
  rw [hg, hf, List.append_assoc]

theorem Copies.quiet {f g : Worker → Worker} {a : List String} (hf : Copies f a)
    (hg : Copies g []) : Copies (fun w => g (f w)) a := by
  have := hf.comp hg
  rwa [List.append_nil] at this

theorem copies_glue (t : String) : Copies (emit (.glue t)) [] := by
  intro w; rw [copied_emit_glue, List.append_nil]

theorem copies_cov (sp : Nat) (k : Kind) : Copies (makeCov sp k) [] := by
  intro w; rw [copied_cov, List.append_nil]

theorem copies_copy (t : Bool) (x : String) :
    Copies (copy t x) (if t = true ∨ x = "" then [] else [x]) := copied_copy t x

theorem copies_wrap (a b : Nat) {f : Worker → Worker} {ts : List String} (hf : Copies f ts) :
    Copies (wrap a b f) ts := by
  intro w
  unfold wrap
  rw [copied_emit_glue, copied_cov, copied_emit_glue, hf, copied_cov, copied_emit_glue]

theorem tokensAll_append (a b : List Node) : tokensAll (a ++ b) = tokensAll a ++ tokensAll b := by
  induction a with
  | nil => rfl
  | cons c cs ih => rw [List.cons_append, tokensAll, tokensAll, ih, List.append_assoc]

theorem tokens_trivia {ts : List Node} (h : ∀ t ∈ ts, IsTrivia t) : tokensAll ts = [] := by
  induction ts with
  | nil => rfl
  | cons c cs ih =>
    obtain ⟨sp, b1, b2, t, rfl⟩ := h c (by simp)
    rw [tokensAll, tokens, ih (fun t ht => h t (by simp [ht]))]
    simp [tokensAll]

theorem parsedAll_mem {cs : List Node} (h : ParsedAll cs) : ∀ c ∈ cs, Parsed c := by
  induction cs with
  | nil => intro c hc; cases hc
  | cons d ds ih =>
    rw [ParsedAll] at h
    intro c hc
    rcases List.mem_cons.1 hc with rfl | hc
    · exact h.1
    · exact ih h.2 c hc

theorem context_body {b : Nat} {pre : List Node} {body : Node} (h : ∀ t ∈ pre, t.span ≠ b)
    (hb : body.span = b) : contextBody b (pre ++ [body]) = visit body := by
  induction pre with
  | nil => funext w; rw [List.nil_append, contextBody, if_pos hb.symm]
  | cons c cs ih =>
    funext w
    rw [List.cons_append, contextBody, if_neg (fun e => h c (by simp) e.symm),
      ih (fun t ht => h t (by simp [ht]))]

/-- The tokens of a node, when it is not one of the leaves. -/
theorem tokens_inner {sp b1 b2 : Nat} {role : Role} {text : String} {cs : List Node}
    (h : text ≠ "" → role = .other ∨ role = .trivia) (hr : role ≠ .other) (ht : role ≠ .trivia) :
    tokens (.mk sp role b1 b2 text cs) = tokensAll cs ∧ text = "" := by
  by_cases hx : text = ""
  · rw [tokens, if_pos (.inr hx)]; exact ⟨rfl, hx⟩
  · rcases h hx with h | h
    · exact absurd h hr
    · exact absurd h ht

theorem copies_congr {f g : Worker → Worker} {ts : List String} (h : ∀ w, g w = f w)
    (hf : Copies f ts) : Copies g ts := by
  intro w; rw [h w]; exact hf w

theorem own_tokens (role : Role) (text : String) :
    (if decide (role = .trivia) = true ∨ text = "" then ([] : List String) else [text]) =
      (if role = .trivia ∨ text = "" then [] else [text]) := by
  simp

mutual
theorem copies_visit : ∀ n, Parsed n → Copies (visit n) (tokens n)
  | .mk sp role b1 b2 text cs, h => by
    rw [Parsed] at h
    obtain ⟨hsp, hctx, -, hleaf, hcs⟩ := h
    cases role with
    | code =>
      rw [visit_code, block_eq]
      obtain ⟨ht, hx⟩ := tokens_inner (sp := sp) (b1 := b1) (b2 := b2) (cs := cs) hleaf
        (by decide) (by decide)
      rw [ht]
      refine copies_wrap _ _ ?_
      subst hx
      exact (copies_copy _ _).comp (copies_visitAll cs hcs)
    | loop =>
      rw [(tokens_inner hleaf (by decide) (by decide)).1]
      exact copies_bodies b1 0 cs hcs
    | cond =>
      rw [(tokens_inner hleaf (by decide) (by decide)).1]
      exact copies_bodies b1 b2 cs hcs
    | closure =>
      rw [(tokens_inner hleaf (by decide) (by decide)).1]
      exact copies_bodies b1 0 cs hcs
    | showSet =>
      rw [(tokens_inner hleaf (by decide) (by decide)).1]
      exact copies_set b1 cs hcs
    | showFn =>
      rw [(tokens_inner hleaf (by decide) (by decide)).1]
      exact copies_fn b1 cs hcs
    | context =>
      rw [(tokens_inner hleaf (by decide) (by decide)).1]
      have hc := copies_context b1 cs hcs (hctx rfl)
      obtain ⟨k, ts, body, rfl, hk, hts, hbody⟩ := hctx rfl
      intro w
      show copied (emit (.glue ")") (contextBody b1 _ (emit (.glue " (")
        (emit (.src false "context") w)))).out = _
      rw [copied_emit_glue, hc, copied_emit_glue]
      have e : copied (emit (.src false "context") w).out = copied w.out ++ ["context"] := by
        simp [emit, copied]
      rw [e, List.append_assoc, tokensAll, tokens]
      rfl
    | trivia =>
      have e : tokens (.mk sp .trivia b1 b2 text cs) =
          (if true = true ∨ text = "" then [] else [text]) ++ tokensAll cs := by
        rw [tokens]; simp
      rw [e]
      exact (copies_copy true text).comp (copies_visitAll cs hcs)
    | other =>
      have e : tokens (.mk sp .other b1 b2 text cs) =
          (if false = true ∨ text = "" then [] else [text]) ++ tokensAll cs := by
        rw [tokens]; simp
      rw [e]
      exact (copies_copy false text).comp (copies_visitAll cs hcs)
theorem copies_visitAll : ∀ cs, ParsedAll cs → Copies (visitAll cs) (tokensAll cs)
  | [], _ => by intro w; rw [visitAll, tokensAll, List.append_nil]
  | c :: cs, h => by
    rw [ParsedAll] at h
    exact (copies_visit c h.1).comp (copies_visitAll cs h.2)
theorem copies_bodies (b1 b2 : Nat) : ∀ cs, ParsedAll cs → Copies (bodies b1 b2 cs) (tokensAll cs)
  | [], _ => by intro w; rw [bodies, tokensAll, List.append_nil]
  | c :: cs, h => by
    rw [ParsedAll] at h
    by_cases hb : b1 = c.span ∨ b2 = c.span
    · exact copies_congr (fun w => by rw [bodies, if_pos hb])
        ((copies_block c h.1).comp (copies_bodies b1 b2 cs h.2))
    · exact copies_congr (fun w => by rw [bodies, if_neg hb])
        ((copies_visit c h.1).comp (copies_bodies b1 b2 cs h.2))
theorem copies_block : ∀ n, Parsed n → Copies (block n) (tokens n)
  | .mk sp role b1 b2 text cs, h => by
    rw [Parsed] at h
    rw [block_eq, tokens, ← own_tokens]
    exact copies_wrap _ _ ((copies_copy _ _).comp (copies_visitAll cs h.2.2.2.2))
theorem copies_set (b : Nat) : ∀ cs, ParsedAll cs → Copies (transformSet b cs) (tokensAll cs)
  | [], _ => by intro w; rw [transformSet, tokensAll, List.append_nil]
  | c :: cs, h => by
    rw [ParsedAll] at h
    by_cases hb : b = c.span
    · intro w
      rw [transformSet, if_pos hb, copies_set b cs h.2, copied_emit_glue, copies_visit c h.1,
        copied_cov, copied_emit_glue, tokensAll, List.append_assoc]
    · exact copies_congr (fun w => by rw [transformSet, if_neg hb])
        ((copies_visit c h.1).comp (copies_set b cs h.2))
theorem copies_fn (b : Nat) : ∀ cs, ParsedAll cs → Copies (transformFn b cs) (tokensAll cs)
  | [], _ => by intro w; rw [transformFn, tokensAll, List.append_nil]
  | c :: cs, h => by
    rw [ParsedAll] at h
    by_cases hb : b = c.span
    · intro w
      rw [transformFn, if_pos hb, copies_fn b cs h.2, copied_emit_glue, copied_cov,
        copied_emit_glue, copies_visit c h.1, copied_emit_glue, tokensAll, List.append_assoc]
    · exact copies_congr (fun w => by rw [transformFn, if_neg hb])
        ((copies_visit c h.1).comp (copies_fn b cs h.2))
theorem copies_context (b : Nat) : ∀ cs, ParsedAll cs →
    (∃ k ts body, cs = Node.mk k .other 0 0 "context" [] :: (ts ++ [body]) ∧
      k ≠ b ∧ (∀ t ∈ ts, IsTrivia t ∧ t.span ≠ b) ∧ body.span = b) →
    Copies (contextBody b cs) (tokensAll cs.tail)
  | [], _, _ => by intro w; rw [contextBody]; simp [tokensAll]
  | c :: cs, h, hc => by
    rw [ParsedAll] at h
    obtain ⟨k, ts, body, e, hk, hts, hbody⟩ := hc
    injection e with e1 e2
    have hcne : ¬ b = c.span := by rw [e1]; exact fun e => hk e.symm
    exact copies_congr (fun w => by rw [contextBody, if_neg hcne])
      (copies_rest b cs h.2 ⟨ts, body, e2, hts, hbody⟩)
theorem copies_rest (b : Nat) : ∀ cs, ParsedAll cs →
    (∃ ts body, cs = ts ++ [body] ∧ (∀ t ∈ ts, IsTrivia t ∧ t.span ≠ b) ∧ body.span = b) →
    Copies (contextBody b cs) (tokensAll cs)
  | [], _, hc => by
    obtain ⟨ts, body, e, -⟩ := hc
    cases ts <;> simp at e
  | c :: cs, h, hc => by
    rw [ParsedAll] at h
    obtain ⟨ts, body, e, hts, hbody⟩ := hc
    by_cases hb : b = c.span
    · have : cs = [] := by
        cases ts with
        | nil => simp at e; exact e.2
        | cons t ts =>
          rw [List.cons_append] at e
          injection e with e1 e2
          exact absurd (e1 ▸ hb.symm) (hts t (by simp)).2
      subst this
      intro w
      rw [contextBody, if_pos hb, copies_visit c h.1, tokensAll, tokensAll, List.append_nil]
    · cases ts with
      | nil =>
        rw [List.nil_append] at e
        injection e with e1 e2
        exact absurd (by rw [e1]; exact hbody.symm) hb
      | cons t ts =>
        rw [List.cons_append] at e
        injection e with e1 e2
        have ih := copies_rest b cs h.2 ⟨ts, body, e2, fun t ht => hts t (by simp [ht]), hbody⟩
        have ht : tokens c = [] := by
          have := tokens_trivia (ts := [c]) (fun t' ht' => by
            rw [List.mem_singleton.1 ht', e1]; exact (hts t (by simp)).1)
          rwa [tokensAll, tokensAll, List.append_nil] at this
        intro w
        rw [contextBody, if_neg hb, ih, tokensAll, ht, List.nil_append]
end

/-- **The rewritten program keeps its tokens.** For every parsed program, the copied parts of the
rewritten text are the program's tokens, all of them, in order. -/
theorem tokens_kept (root : Node) (h : Parsed root) :
    copied (instrument root).out = tokens root := by
  have := copies_visit root h ⟨[], []⟩
  rw [instrument, this]
  rfl

/-! ### Every body is counted -/

theorem places_grow {w w' : Worker} (h : Grows w w') {i : Nat} {e : Nat × Kind}
    (hi : w.places[i]? = some e) : w'.places[i]? = some e := by
  obtain ⟨o, p, -, hp⟩ := h
  have hl : i < w.places.length := by
    rcases Nat.lt_or_ge i w.places.length with h | h
    · exact h
    · rw [List.getElem?_eq_none h] at hi; cases hi
  rw [hp, List.getElem?_append_left hl]
  exact hi

theorem Counted.grow {b : Node} {w w' : Worker} (h : Counted b w) (g : Grows w w') :
    Counted b w' := by
  obtain ⟨pre, mid, post, i, j, ho, hi, hj, hm⟩ := h
  have hi' := places_grow g hi
  have hj' := places_grow g hj
  obtain ⟨o, p, go, -⟩ := g
  exact ⟨pre, mid, post ++ o, i, j, by rw [go, ho]; simp only [List.append_assoc], hi', hj', hm⟩

theorem ShowCounted.grow {b : Node} {w w' : Worker} (h : ShowCounted b w) (g : Grows w w') :
    ShowCounted b w' := by
  obtain ⟨pre, mid, post, i, hi, hm, ho⟩ := h
  have hi' := places_grow g hi
  obtain ⟨o, p, go, -⟩ := g
  refine ⟨pre, mid, post ++ o, i, hi', hm, ?_⟩
  rcases ho with ho | ho
  · exact .inl (by rw [go, ho]; simp only [List.append_assoc])
  · exact .inr (by rw [go, ho]; simp only [List.append_assoc])

theorem firstSpan_eq (sp : Nat) (r : Role) (b1 b2 : Nat) (t : String) (cs : List Node) :
    firstSpan cs = begins (.mk sp r b1 b2 t cs) := by
  cases cs <;> rfl

theorem lastSpan_eq (sp : Nat) (r : Role) (b1 b2 : Nat) (t : String) (cs : List Node) :
    lastSpan cs = ends (.mk sp r b1 b2 t cs) := by
  unfold ends
  match cs with
  | [] => rfl
  | [c] => rfl
  | c :: d :: ds =>
    show lastSpan (c :: d :: ds) = if (c :: d :: ds).length < 2 then 0 else _
    rw [if_neg (by simp)]
    simp only [lastSpan, Node.children, List.getLast?_cons_cons]
    cases h : (d :: ds).getLast? with
    | none => simp at h
    | some x => rfl

/-- A framed text is counted by the worker that frames it. -/
theorem wrap_counted {b : Node} {f : Worker → Worker} (hs : Step f) (hc : Copies f (tokens b))
    (w : Worker) : Counted b (wrap (begins b) (ends b) f w) := by
  unfold wrap
  obtain ⟨o, p, ho, hp⟩ := hs.1 (makeCov (begins b) .openBrace (emit (.glue "{\n") w))
  have hm := hc (makeCov (begins b) .openBrace (emit (.glue "{\n") w))
  rw [ho, copied_append] at hm
  generalize f (makeCov (begins b) .openBrace (emit (.glue "{\n") w)) = w' at *
  have hi : w'.places[w.places.length]? = some (begins b, .openBrace) := by
    rw [hp]
    simp [makeCov, emit]
  have hl : w.places.length < w'.places.length := by rw [hp]; simp [makeCov, emit]
  refine ⟨w.out, o, [], w.places.length, w'.places.length, ?_, ?_, ?_,
    List.append_cancel_left hm⟩
  · simp only [emit, makeCov] at ho
    simp only [emit, makeCov, ho]
    simp
  · show ((w'.places ++ [(ends b, Kind.closeBrace)]))[w.places.length]? = _
    rw [List.getElem?_append_left hl]
    exact hi
  · show ((w'.places ++ [(ends b, Kind.closeBrace)]))[w'.places.length]? = _
    simp

/-- A block is counted by the worker that writes it. -/
theorem block_counted : ∀ (n : Node), Parsed n → ∀ w, Counted n (block n w)
  | .mk sp role b1 b2 text cs, hn, w => by
    rw [block_eq, firstSpan_eq sp role b1 b2 text cs, lastSpan_eq sp role b1 b2 text cs]
    refine wrap_counted ((step_copy _ _).comp (step_visitAll cs)) ?_ w
    rw [tokens, ← own_tokens]
    rw [Parsed] at hn
    exact (copies_copy _ _).comp (copies_visitAll cs hn.2.2.2.2)

/-- What there is to count. -/
inductive Tag | body | shown

def Tag.Done : Tag → Node → Worker → Prop
  | .body => Counted
  | .shown => ShowCounted

theorem Tag.Done.grow {t : Tag} {b : Node} {w w' : Worker} (h : t.Done b w) (g : Grows w w') :
    t.Done b w' := by
  cases t
  · exact Counted.grow h g
  · exact ShowCounted.grow h g

/-- `b` is to be counted when `n` is visited; `true` when `n` is visited as a body. -/
inductive Due : Tag → Bool → Node → Node → Prop
  | code {n} : n.role = .code → Due .body false n n
  | own {b n} : BodyOf b n → Due .body false b n
  | shows {b n} : ShownBy b n → Due .shown false b n
  | free {t f b c n} : c ∈ n.children → ¬ BodyOf c n → Due t false b c → Due t f b n
  | body {t f b c n} : c ∈ n.children → BodyOf c n → Due t true b c → Due t f b n

theorem due_of_mem {t : Tag} {fl : Bool} {b c n : Node} (hc : c ∈ n.children)
    (h : ∀ f, Due t f b c) : Due t fl b n := by
  by_cases hb : BodyOf c n
  · exact .body hc hb (h true)
  · exact .free hc hb (h false)

theorem due_within {t : Tag} {b m n : Node} (hw : Within m n) (h : ∀ f, Due t f b m) :
    ∀ f, Due t f b n := by
  induction hw with
  | self => exact h
  | child _ hc ih => exact ih (fun f => due_of_mem hc h)

theorem due_of_free {t : Tag} {b m n : Node} (hf : Free m n) (h : Due t false b m) :
    Due t false b n := by
  cases hf with
  | self => exact h
  | child hw hc hb => exact due_within hw (fun f => .free hc hb h) false

/-- A leaf that is not a block has nothing to count. -/
theorem due_leaf {t : Tag} {f : Bool} {b : Node} {sp b1 b2 : Nat} {r : Role} {x : String}
    (hr : r ≠ .code) : ¬ Due t f b (.mk sp r b1 b2 x []) := by
  intro h
  cases h with
  | code h => exact hr h
  | own h => cases h.1
  | shows h => cases h.1
  | free h => cases h
  | body h => cases h

/-- Of a block visited as a body, what is to be counted is inside its children. -/
theorem due_children {t : Tag} {f : Bool} {b : Node} {sp b1 b2 : Nat} {r : Role} {x : String}
    {cs : List Node} (h : Due t f b (.mk sp r b1 b2 x cs)) (hf : f = true) :
    ∃ c ∈ cs, Due t false b c ∨ Due t true b c := by
  cases h with
  | code _ => cases hf
  | own _ => cases hf
  | shows _ => cases hf
  | free hc _ h => exact ⟨_, hc, .inl h⟩
  | body hc _ h => exact ⟨_, hc, .inr h⟩

/-- Being visited as a body only takes duties away. -/
theorem due_weaken {t : Tag} {b n : Node} (h : Due t true b n) : Due t false b n := by
  cases h with
  | free hc hb h => exact .free hc hb h
  | body hc hb h => exact .body hc hb h

theorem bodyOf_role {c n : Node} (h : BodyOf c n) :
    n.role = .loop ∨ n.role = .closure ∨ n.role = .cond := by
  rcases h.2 with ⟨h | h, _⟩ | ⟨h, _⟩
  · exact .inl h
  · exact .inr (.inl h)
  · exact .inr (.inr h)

/-- What a node that is not a loop, closure or conditional leaves to its children. -/
theorem due_plain {t : Tag} {b : Node} {sp b1 b2 : Nat} {r : Role} {x : String}
    {cs : List Node} (h : Due t false b (.mk sp r b1 b2 x cs))
    (hr : ¬ (r = .loop ∨ r = .closure ∨ r = .cond)) :
    (t = .body ∧ b = .mk sp r b1 b2 x cs ∧ r = .code) ∨
    (t = .shown ∧ ShownBy b (.mk sp r b1 b2 x cs)) ∨ ∃ c ∈ cs, Due t false b c := by
  cases h with
  | code h => exact .inl ⟨rfl, rfl, h⟩
  | own h => exact absurd (bodyOf_role h) hr
  | shows h => exact .inr (.inl ⟨rfl, h⟩)
  | free hc _ h => exact .inr (.inr ⟨_, hc, h⟩)
  | body hc hb h => exact absurd (bodyOf_role hb) hr

/-- What a loop, closure or conditional leaves to its children. -/
theorem due_bodies {t : Tag} {b : Node} {sp b1 b2 : Nat} {r : Role} {x : String}
    {cs : List Node} (h : Due t false b (.mk sp r b1 b2 x cs))
    (hr : r = .loop ∨ r = .closure ∨ r = .cond) :
    ∃ c ∈ cs, (t = .body ∧ b = c ∧ BodyOf c (.mk sp r b1 b2 x cs)) ∨
      (¬ BodyOf c (.mk sp r b1 b2 x cs) ∧ Due t false b c) ∨
      (BodyOf c (.mk sp r b1 b2 x cs) ∧ Due t true b c) := by
  cases h with
  | code h =>
    simp only [Node.role] at h
    subst h
    rcases hr with hr | hr | hr <;> cases hr
  | own h => exact ⟨b, h.1, .inl ⟨rfl, rfl, h⟩⟩
  | shows h =>
    have := h.2.1
    simp only [Node.role] at this
    rcases hr with rfl | rfl | rfl <;> rcases this with h | h <;> cases h
  | free hc hb h => exact ⟨_, hc, .inr (.inl ⟨hb, h⟩)⟩
  | body hc hb h => exact ⟨_, hc, .inr (.inr ⟨hb, h⟩)⟩

/-- What `bodies` has to do at one of the children. -/
def DueAt (t : Tag) (b : Node) (b1 b2 : Nat) (c : Node) : Prop :=
  if b1 = c.span ∨ b2 = c.span then (t = .body ∧ b = c) ∨ Due t true b c else Due t false b c

/-- What the two loops over a show rule have to do at one of the children. -/
def DueShow (t : Tag) (b : Node) (b1 : Nat) (c : Node) : Prop :=
  (t = .shown ∧ b = c ∧ b1 = c.span) ∨ Due t false b c

theorem show_set_counted {c : Node} (hc : Parsed c) (w : Worker) :
    ShowCounted c (emit (.glue "\n__it; }\n") (visit c
      (makeCov c.span .show (emit (.glue "__it => {") w)))) := by
  obtain ⟨o, p, ho, hp⟩ := (step_visit c).1 (makeCov c.span .show (emit (.glue "__it => {") w))
  have hm := copies_visit c hc (makeCov c.span .show (emit (.glue "__it => {") w))
  rw [ho, copied_append] at hm
  refine ⟨w.out, o, [], w.places.length, ?_, List.append_cancel_left hm, .inl ?_⟩
  · show (visit c _).places[_]? = _
    rw [hp]
    simp [makeCov, emit]
  · simp only [emit, makeCov] at ho
    simp only [emit, makeCov, ho]
    simp

theorem show_fn_counted {c : Node} (hc : Parsed c) (w : Worker) :
    ShowCounted c (emit (.glue showFnTail) (makeCov c.span .show (emit (.glue "\n__it => {")
      (visit c (emit (.glue "{\nlet __cov_show_body = ") w))))) := by
  obtain ⟨o, p, ho, hp⟩ := (step_visit c).1 (emit (.glue "{\nlet __cov_show_body = ") w)
  have hm := copies_visit c hc (emit (.glue "{\nlet __cov_show_body = ") w)
  rw [ho, copied_append] at hm
  generalize visit c (emit (.glue "{\nlet __cov_show_body = ") w) = w' at *
  refine ⟨w.out, o, [], w'.places.length, ?_, List.append_cancel_left hm, .inr ?_⟩
  · show (w'.places ++ [(c.span, Kind.show)])[w'.places.length]? = _
    simp
  · simp only [emit, makeCov, ho]
    simp

theorem parsed_span : ∀ {n : Node}, Parsed n → n.span ≠ 0
  | .mk _ _ _ _ _ _, h => by rw [Parsed] at h; exact h.1

theorem dueAt_of {t : Tag} {b c n : Node} {b1 b2 : Nat} (hsp : c.span ≠ 0)
    (he : BodyOf c n ↔ b1 = c.span ∨ b2 = c.span)
    (h : (t = .body ∧ b = c ∧ BodyOf c n) ∨ (¬ BodyOf c n ∧ Due t false b c) ∨
      (BodyOf c n ∧ Due t true b c)) : DueAt t b b1 b2 c := by
  unfold DueAt
  by_cases hb : b1 = c.span ∨ b2 = c.span
  · rw [if_pos hb]
    rcases h with ⟨h1, h2, -⟩ | ⟨h, -⟩ | ⟨-, h⟩
    · exact .inl ⟨h1, h2⟩
    · exact absurd (he.2 hb) h
    · exact .inr h
  · rw [if_neg hb]
    rcases h with ⟨-, -, h⟩ | ⟨-, h⟩ | ⟨h, -⟩
    · exact absurd (he.1 h) hb
    · exact h
    · exact absurd (he.1 h) hb

/-- `contextBody` visits the body. -/
theorem context_due {t : Tag} {b : Node} {cs : List Node} {b1 : Nat}
    (hctx : ∃ k ts body, cs = Node.mk k .other 0 0 "context" [] :: (ts ++ [body]) ∧
      k ≠ b1 ∧ (∀ t ∈ ts, IsTrivia t ∧ t.span ≠ b1) ∧ body.span = b1)
    (h : ∃ c ∈ cs, Due t false b c) :
    ∃ c ∈ cs, c.span = b1 ∧ Due t false b c ∧ contextBody b1 cs = visit c := by
  obtain ⟨k, ts, body, rfl, hk, hts, hb⟩ := hctx
  obtain ⟨c, hc, hd⟩ := h
  have hcb : contextBody b1 (Node.mk k .other 0 0 "context" [] :: (ts ++ [body])) = visit body :=
    context_body (pre := Node.mk k .other 0 0 "context" [] :: ts) (by
      intro x hx
      rcases List.mem_cons.1 hx with rfl | hx
      · exact hk
      · exact (hts x hx).2) hb
  rcases List.mem_cons.1 hc with rfl | hc
  · exact absurd hd (due_leaf (by decide))
  · rcases List.mem_append.1 hc with hc | hc
    · obtain ⟨sp, c1, c2, x, rfl⟩ := (hts c hc).1
      exact absurd hd (due_leaf (by decide))
    · rw [List.mem_singleton] at hc
      subst hc
      exact ⟨c, by simp, hb, hd, hcb⟩

mutual
theorem done_visit (t : Tag) (b : Node) : ∀ n, Parsed n → Due t false b n → ∀ w,
    t.Done b (visit n w)
  | .mk sp role b1 b2 text cs, hn, h, w => by
    have hn' := hn
    rw [Parsed] at hn
    obtain ⟨hsp, hctx, -, hleaf, hcs⟩ := hn
    cases role with
    | code =>
      rw [visit_code]
      rcases due_plain h (by decide) with ⟨rfl, rfl, -⟩ | ⟨-, hs⟩ | hc
      · exact block_counted _ hn' w
      · rcases hs.2.1 with h | h <;> cases h
      · rw [block_eq, wrap]
        exact ((done_visitAll t b cs hcs hc _).grow (grows_emit _ _)).grow (grows_cov _ _ _) |>.grow
          (grows_emit _ _)
    | loop =>
      refine done_bodies t b b1 0 cs hcs ?_ w
      obtain ⟨c, hc, h⟩ := due_bodies h (by decide)
      have hs := parsed_span (parsedAll_mem hcs c hc)
      refine ⟨c, hc, dueAt_of hs ?_ h⟩
      simp [BodyOf, Node.children, Node.role, Node.b1, hc, hs.symm]
    | cond =>
      refine done_bodies t b b1 b2 cs hcs ?_ w
      obtain ⟨c, hc, h⟩ := due_bodies h (by decide)
      have hs := parsed_span (parsedAll_mem hcs c hc)
      refine ⟨c, hc, dueAt_of hs ?_ h⟩
      simp [BodyOf, Node.children, Node.role, Node.b1, Node.b2, hc]
    | closure =>
      refine done_bodies t b b1 0 cs hcs ?_ w
      obtain ⟨c, hc, h⟩ := due_bodies h (by decide)
      have hs := parsed_span (parsedAll_mem hcs c hc)
      refine ⟨c, hc, dueAt_of hs ?_ h⟩
      simp [BodyOf, Node.children, Node.role, Node.b1, hc, hs.symm]
    | showSet =>
      refine done_set t b b1 cs hcs ?_ w
      rcases due_plain h (by decide) with ⟨-, -, h⟩ | ⟨ht, hs⟩ | ⟨c, hc, h⟩
      · cases h
      · exact ⟨b, hs.1, .inl ⟨ht, rfl, hs.2.2⟩⟩
      · exact ⟨c, hc, .inr h⟩
    | showFn =>
      refine done_fn t b b1 cs hcs ?_ w
      rcases due_plain h (by decide) with ⟨-, -, h⟩ | ⟨ht, hs⟩ | ⟨c, hc, h⟩
      · cases h
      · exact ⟨b, hs.1, .inl ⟨ht, rfl, hs.2.2⟩⟩
      · exact ⟨c, hc, .inr h⟩
    | context =>
      rcases due_plain h (by decide) with ⟨-, -, h⟩ | ⟨-, hs⟩ | hc
      · cases h
      · rcases hs.2.1 with h | h <;> cases h
      · obtain ⟨c, hc, hcs', hd, he⟩ := context_due (hctx rfl) hc
        rw [visit, he]
        exact Tag.Done.grow (done_mem t b cs hcs c hc hd _) (grows_emit _ _)
    | trivia =>
      rcases due_plain h (by decide) with ⟨-, -, h⟩ | ⟨-, hs⟩ | hc
      · cases h
      · rcases hs.2.1 with h | h <;> cases h
      · exact done_visitAll t b cs hcs hc _
    | other =>
      rcases due_plain h (by decide) with ⟨-, -, h⟩ | ⟨-, hs⟩ | hc
      · cases h
      · rcases hs.2.1 with h | h <;> cases h
      · exact done_visitAll t b cs hcs hc _
theorem done_mem (t : Tag) (b : Node) : ∀ cs, ParsedAll cs → ∀ c ∈ cs, Due t false b c → ∀ w,
    t.Done b (visit c w)
  | [], _, c, hc, _, _ => by cases hc
  | d :: ds, hcs, c, hc, hd, w => by
    rw [ParsedAll] at hcs
    by_cases e : c = d
    · have h := done_visit t b d hcs.1 (e ▸ hd) w
      rw [e]; exact h
    · exact done_mem t b ds hcs.2 c (by
        rcases List.mem_cons.1 hc with h | h
        · exact absurd h e
        · exact h) hd w
theorem done_visitAll (t : Tag) (b : Node) : ∀ cs, ParsedAll cs → (∃ c ∈ cs, Due t false b c) →
    ∀ w, t.Done b (visitAll cs w)
  | [], _, h, _ => by obtain ⟨c, hc, -⟩ := h; cases hc
  | d :: ds, hcs, h, w => by
    rw [ParsedAll] at hcs
    obtain ⟨c, hc, hd⟩ := h
    rw [visitAll]
    by_cases e : c = d
    · exact (done_visit t b d hcs.1 (e ▸ hd) w).grow ((step_visitAll ds).1 _)
    · exact done_visitAll t b ds hcs.2 ⟨c, (List.mem_cons.1 hc).resolve_left e, hd⟩ _
theorem done_bodies (t : Tag) (b : Node) (b1 b2 : Nat) : ∀ cs, ParsedAll cs →
    (∃ c ∈ cs, DueAt t b b1 b2 c) → ∀ w, t.Done b (bodies b1 b2 cs w)
  | [], _, h, _ => by obtain ⟨c, hc, -⟩ := h; cases hc
  | d :: ds, hcs, h, w => by
    rw [ParsedAll] at hcs
    obtain ⟨c, hc, hd⟩ := h
    by_cases e : c = d
    · rw [e] at hd
      by_cases hb : b1 = d.span ∨ b2 = d.span
      · rw [bodies, if_pos hb]
        rw [DueAt, if_pos hb] at hd
        refine Tag.Done.grow ?_ ((step_bodies b1 b2 ds).1 _)
        rcases hd with ⟨rfl, rfl⟩ | hd
        · exact block_counted _ hcs.1 w
        · exact done_block t b d hcs.1 hd w
      · rw [bodies, if_neg hb]
        rw [DueAt, if_neg hb] at hd
        exact (done_visit t b d hcs.1 hd w).grow ((step_bodies b1 b2 ds).1 _)
    · have hc' : c ∈ ds := (List.mem_cons.1 hc).resolve_left e
      by_cases hb : b1 = d.span ∨ b2 = d.span
      · rw [bodies, if_pos hb]
        exact done_bodies t b b1 b2 ds hcs.2 ⟨c, hc', hd⟩ _
      · rw [bodies, if_neg hb]
        exact done_bodies t b b1 b2 ds hcs.2 ⟨c, hc', hd⟩ _
theorem done_block (t : Tag) (b : Node) : ∀ n, Parsed n → Due t true b n → ∀ w,
    t.Done b (block n w)
  | .mk sp role b1 b2 text cs, hn, h, w => by
    rw [Parsed] at hn
    obtain ⟨c, hc, h⟩ := due_children h rfl
    have hd : Due t false b c := h.elim id due_weaken
    rw [block_eq, wrap]
    exact ((done_visitAll t b cs hn.2.2.2.2 ⟨c, hc, hd⟩ _).grow (grows_emit _ _)).grow
      (grows_cov _ _ _) |>.grow (grows_emit _ _)
theorem done_set (t : Tag) (b : Node) (b1 : Nat) : ∀ cs, ParsedAll cs →
    (∃ c ∈ cs, DueShow t b b1 c) → ∀ w, t.Done b (transformSet b1 cs w)
  | [], _, h, _ => by obtain ⟨c, hc, -⟩ := h; cases hc
  | d :: ds, hcs, h, w => by
    rw [ParsedAll] at hcs
    obtain ⟨c, hc, hd⟩ := h
    by_cases e : c = d
    · rw [e] at hd
      by_cases hb : b1 = d.span
      · rw [transformSet, if_pos hb]
        refine Tag.Done.grow ?_ ((step_set b1 ds).1 _)
        rcases hd with ⟨rfl, rfl, -⟩ | hd
        · exact show_set_counted hcs.1 w
        · exact (done_visit t b d hcs.1 hd _).grow (grows_emit _ _)
      · rw [transformSet, if_neg hb]
        rcases hd with ⟨-, -, h⟩ | hd
        · exact absurd h hb
        · exact (done_visit t b d hcs.1 hd w).grow ((step_set b1 ds).1 _)
    · have hc' : c ∈ ds := (List.mem_cons.1 hc).resolve_left e
      by_cases hb : b1 = d.span
      · rw [transformSet, if_pos hb]
        exact done_set t b b1 ds hcs.2 ⟨c, hc', hd⟩ _
      · rw [transformSet, if_neg hb]
        exact done_set t b b1 ds hcs.2 ⟨c, hc', hd⟩ _
theorem done_fn (t : Tag) (b : Node) (b1 : Nat) : ∀ cs, ParsedAll cs →
    (∃ c ∈ cs, DueShow t b b1 c) → ∀ w, t.Done b (transformFn b1 cs w)
  | [], _, h, _ => by obtain ⟨c, hc, -⟩ := h; cases hc
  | d :: ds, hcs, h, w => by
    rw [ParsedAll] at hcs
    obtain ⟨c, hc, hd⟩ := h
    by_cases e : c = d
    · rw [e] at hd
      by_cases hb : b1 = d.span
      · rw [transformFn, if_pos hb]
        refine Tag.Done.grow ?_ ((step_fn b1 ds).1 _)
        rcases hd with ⟨rfl, rfl, -⟩ | hd
        · exact show_fn_counted hcs.1 w
        · exact (((done_visit t b d hcs.1 hd _).grow (grows_emit _ _)).grow (grows_cov _ _ _)).grow
            (grows_emit _ _)
      · rw [transformFn, if_neg hb]
        rcases hd with ⟨-, -, h⟩ | hd
        · exact absurd h hb
        · exact (done_visit t b d hcs.1 hd w).grow ((step_fn b1 ds).1 _)
    · have hc' : c ∈ ds := (List.mem_cons.1 hc).resolve_left e
      by_cases hb : b1 = d.span
      · rw [transformFn, if_pos hb]
        exact done_fn t b b1 ds hcs.2 ⟨c, hc', hd⟩ _
      · rw [transformFn, if_neg hb]
        exact done_fn t b b1 ds hcs.2 ⟨c, hc', hd⟩ _
end

/-- **Blocks are counted.** Every code block of a parsed program that is not itself a body is run
between two counter calls, one for its opening and one for its closing brace. -/
theorem block_runs_counted (root n : Node) (hp : Parsed root) (hf : Free n root)
    (hr : n.role = .code) : Counted n (instrument root) :=
  done_visit .body n root hp (due_of_free hf (.code hr)) _

/-- **Bodies are counted.** Every body of a loop or closure, and every branch of a conditional, is
run between two counter calls of its own – provided the loop, closure or conditional is not itself a
body (see `branch_not_counted`). -/
theorem body_runs_counted_partial (root n b : Node) (hp : Parsed root) (hf : Free n root)
    (hb : BodyOf b n) : Counted b (instrument root) :=
  done_visit .body b root hp (due_of_free hf (.own hb)) _

/-- **Show rules are counted**, likewise. -/
theorem show_runs_counted_partial (root n c : Node) (hp : Parsed root) (hf : Free n root)
    (hb : ShownBy c n) : ShowCounted c (instrument root) :=
  done_visit .shown c root hp (due_of_free hf (.shows hb)) _

/-! ### Nothing else is counted -/

theorem genuine_child {c n : Node} {e : Nat × Kind} (hc : c ∈ n.children) (h : Genuine c e) :
    Genuine n e := by
  rcases h with ⟨b, hb, he⟩ | ⟨t, ht, he⟩
  · exact .inl ⟨b, .inside hc hb, he⟩
  · exact .inr ⟨t, .inside hc ht, he⟩

theorem copy_places (t : Bool) (x : String) (w : Worker) : (copy t x w).places = w.places := by
  unfold copy; split <;> rfl

theorem mem_cov {sp : Nat} {k : Kind} {w : Worker} {e : Nat × Kind}
    (h : e ∈ (makeCov sp k w).places) : e ∈ w.places ∨ e = (sp, k) := by
  rcases List.mem_append.1 h with h | h
  · exact .inl h
  · exact .inr (List.mem_singleton.1 h)

/-- The two places of a body. -/
def PlaceOf (b : Node) (e : Nat × Kind) : Prop :=
  e = (begins b, .openBrace) ∨ e = (ends b, .closeBrace)

theorem genuine_own {b n : Node} {e : Nat × Kind} (h : Body b n) (he : PlaceOf b e) :
    Genuine n e := .inl ⟨b, h, he⟩

theorem block_places {e : Nat × Kind} {sp b1 b2 : Nat} {role : Role} {text : String}
    {cs : List Node} (hall : ∀ w, e ∈ (visitAll cs w).places →
      e ∈ w.places ∨ ∃ c ∈ cs, Genuine c e) {w : Worker}
    (h : e ∈ (block (.mk sp role b1 b2 text cs) w).places) :
    e ∈ w.places ∨ Genuine (.mk sp role b1 b2 text cs) e ∨ PlaceOf (.mk sp role b1 b2 text cs) e := by
  rw [block_eq, wrap] at h
  rcases mem_cov h with h | h
  · rcases hall _ h with h | ⟨c, hc, h⟩
    · rw [copy_places] at h
      rcases mem_cov h with h | h
      · exact .inl h
      · rw [firstSpan_eq sp role b1 b2 text cs] at h
        exact .inr (.inr (.inl h))
    · exact .inr (.inl (genuine_child hc h))
  · rw [lastSpan_eq sp role b1 b2 text cs] at h
    exact .inr (.inr (.inr h))

mutual
theorem only_visit (e : Nat × Kind) : ∀ n, Parsed n → ∀ w, e ∈ (visit n w).places →
    e ∈ w.places ∨ Genuine n e
  | .mk sp role b1 b2 text cs, hn, w, h => by
    rw [Parsed] at hn
    obtain ⟨hsp, hctx, -, hleaf, hcs⟩ := hn
    cases role with
    | code =>
      rw [visit_code] at h
      rcases block_places (only_visitAll e cs hcs) h with h | h | h
      · exact .inl h
      · exact .inr h
      · exact .inr (genuine_own (.code rfl) h)
    | loop =>
      rcases only_bodies e b1 0 cs hcs w h with h | ⟨c, hc, h⟩
      · exact .inl h
      · rcases h with h | ⟨hb, h⟩
        · exact .inr (genuine_child hc h)
        · have hs := parsed_span (parsedAll_mem hcs c hc)
          rcases hb with hb | hb
          · exact .inr (genuine_own (.own ⟨hc, .inl ⟨.inl rfl, hb⟩⟩) h)
          · exact absurd hb.symm hs
    | cond =>
      rcases only_bodies e b1 b2 cs hcs w h with h | ⟨c, hc, h⟩
      · exact .inl h
      · rcases h with h | ⟨hb, h⟩
        · exact .inr (genuine_child hc h)
        · exact .inr (genuine_own (.own ⟨hc, .inr ⟨rfl, hb⟩⟩) h)
    | closure =>
      rcases only_bodies e b1 0 cs hcs w h with h | ⟨c, hc, h⟩
      · exact .inl h
      · rcases h with h | ⟨hb, h⟩
        · exact .inr (genuine_child hc h)
        · have hs := parsed_span (parsedAll_mem hcs c hc)
          rcases hb with hb | hb
          · exact .inr (genuine_own (.own ⟨hc, .inl ⟨.inr rfl, hb⟩⟩) h)
          · exact absurd hb.symm hs
    | showSet =>
      rcases only_set e b1 cs hcs w h with h | ⟨c, hc, h | ⟨hb, h⟩⟩
      · exact .inl h
      · exact .inr (genuine_child hc h)
      · exact .inr (.inr ⟨c, .own ⟨hc, .inl rfl, hb⟩, h⟩)
    | showFn =>
      rcases only_fn e b1 cs hcs w h with h | ⟨c, hc, h | ⟨hb, h⟩⟩
      · exact .inl h
      · exact .inr (genuine_child hc h)
      · exact .inr (.inr ⟨c, .own ⟨hc, .inr rfl, hb⟩, h⟩)
    | context =>
      rcases only_context e b1 cs hcs _ h with h | ⟨c, hc, h⟩
      · exact .inl h
      · exact .inr (genuine_child hc h)
    | trivia =>
      rcases only_visitAll e cs hcs _ h with h | ⟨c, hc, h⟩
      · rw [copy_places] at h; exact .inl h
      · exact .inr (genuine_child hc h)
    | other =>
      rcases only_visitAll e cs hcs _ h with h | ⟨c, hc, h⟩
      · rw [copy_places] at h; exact .inl h
      · exact .inr (genuine_child hc h)
theorem only_visitAll (e : Nat × Kind) : ∀ cs, ParsedAll cs → ∀ w, e ∈ (visitAll cs w).places →
    e ∈ w.places ∨ ∃ c ∈ cs, Genuine c e
  | [], _, _, h => .inl h
  | c :: cs, hcs, w, h => by
    rw [ParsedAll] at hcs
    rcases only_visitAll e cs hcs.2 _ h with h | ⟨d, hd, h⟩
    · rcases only_visit e c hcs.1 w h with h | h
      · exact .inl h
      · exact .inr ⟨c, by simp, h⟩
    · exact .inr ⟨d, by simp [hd], h⟩
theorem only_block (e : Nat × Kind) : ∀ n, Parsed n → ∀ w, e ∈ (block n w).places →
    e ∈ w.places ∨ Genuine n e ∨ PlaceOf n e
  | .mk sp role b1 b2 text cs, hn, w, h => by
    rw [Parsed] at hn
    exact block_places (only_visitAll e cs hn.2.2.2.2) h
theorem only_bodies (e : Nat × Kind) (b1 b2 : Nat) : ∀ cs, ParsedAll cs → ∀ w,
    e ∈ (bodies b1 b2 cs w).places →
    e ∈ w.places ∨ ∃ c ∈ cs, Genuine c e ∨ ((b1 = c.span ∨ b2 = c.span) ∧ PlaceOf c e)
  | [], _, _, h => .inl h
  | c :: cs, hcs, w, h => by
    rw [ParsedAll] at hcs
    by_cases hb : b1 = c.span ∨ b2 = c.span
    · rw [bodies, if_pos hb] at h
      rcases only_bodies e b1 b2 cs hcs.2 _ h with h | ⟨d, hd, h⟩
      · rcases only_block e c hcs.1 w h with h | h | h
        · exact .inl h
        · exact .inr ⟨c, by simp, .inl h⟩
        · exact .inr ⟨c, by simp, .inr ⟨hb, h⟩⟩
      · exact .inr ⟨d, by simp [hd], h⟩
    · rw [bodies, if_neg hb] at h
      rcases only_bodies e b1 b2 cs hcs.2 _ h with h | ⟨d, hd, h⟩
      · rcases only_visit e c hcs.1 w h with h | h
        · exact .inl h
        · exact .inr ⟨c, by simp, .inl h⟩
      · exact .inr ⟨d, by simp [hd], h⟩
theorem only_set (e : Nat × Kind) (b : Nat) : ∀ cs, ParsedAll cs → ∀ w,
    e ∈ (transformSet b cs w).places →
    e ∈ w.places ∨ ∃ c ∈ cs, Genuine c e ∨ (b = c.span ∧ e = (c.span, .show))
  | [], _, _, h => .inl h
  | c :: cs, hcs, w, h => by
    rw [ParsedAll] at hcs
    by_cases hb : b = c.span
    · rw [transformSet, if_pos hb] at h
      rcases only_set e b cs hcs.2 _ h with h | ⟨d, hd, h⟩
      · rcases only_visit e c hcs.1 _ h with h | h
        · rcases mem_cov h with h | h
          · exact .inl h
          · exact .inr ⟨c, by simp, .inr ⟨hb, h⟩⟩
        · exact .inr ⟨c, by simp, .inl h⟩
      · exact .inr ⟨d, by simp [hd], h⟩
    · rw [transformSet, if_neg hb] at h
      rcases only_set e b cs hcs.2 _ h with h | ⟨d, hd, h⟩
      · rcases only_visit e c hcs.1 w h with h | h
        · exact .inl h
        · exact .inr ⟨c, by simp, .inl h⟩
      · exact .inr ⟨d, by simp [hd], h⟩
theorem only_fn (e : Nat × Kind) (b : Nat) : ∀ cs, ParsedAll cs → ∀ w,
    e ∈ (transformFn b cs w).places →
    e ∈ w.places ∨ ∃ c ∈ cs, Genuine c e ∨ (b = c.span ∧ e = (c.span, .show))
  | [], _, _, h => .inl h
  | c :: cs, hcs, w, h => by
    rw [ParsedAll] at hcs
    by_cases hb : b = c.span
    · rw [transformFn, if_pos hb] at h
      rcases only_fn e b cs hcs.2 _ h with h | ⟨d, hd, h⟩
      · rcases mem_cov h with h | h
        · rcases only_visit e c hcs.1 _ h with h | h
          · exact .inl h
          · exact .inr ⟨c, by simp, .inl h⟩
        · exact .inr ⟨c, by simp, .inr ⟨hb, h⟩⟩
      · exact .inr ⟨d, by simp [hd], h⟩
    · rw [transformFn, if_neg hb] at h
      rcases only_fn e b cs hcs.2 _ h with h | ⟨d, hd, h⟩
      · rcases only_visit e c hcs.1 w h with h | h
        · exact .inl h
        · exact .inr ⟨c, by simp, .inl h⟩
      · exact .inr ⟨d, by simp [hd], h⟩
theorem only_context (e : Nat × Kind) (b : Nat) : ∀ cs, ParsedAll cs → ∀ w,
    e ∈ (contextBody b cs w).places → e ∈ w.places ∨ ∃ c ∈ cs, Genuine c e
  | [], _, _, h => .inl h
  | c :: cs, hcs, w, h => by
    rw [ParsedAll] at hcs
    by_cases hb : b = c.span
    · rw [contextBody, if_pos hb] at h
      rcases only_visit e c hcs.1 w h with h | h
      · exact .inl h
      · exact .inr ⟨c, by simp, h⟩
    · rw [contextBody, if_neg hb] at h
      rcases only_context e b cs hcs.2 w h with h | ⟨d, hd, h⟩
      · exact .inl h
      · exact .inr ⟨d, by simp [hd], h⟩
end

/-- **Nothing else is counted.** Every place of the report is the beginning or the end of a body of
the program, or the transform of one of its show rules. -/
theorem places_genuine (root : Node) (hp : Parsed root) :
    ∀ e ∈ (instrument root).places, Genuine root e := by
  intro e he
  rcases only_visit e root hp _ he with h | h
  · cases h
  · exact h

/-! ### Examples -/

/-- A leaf with a text. -/
def leaf (sp : Nat) (t : String) : Node := .mk sp .other 0 0 t []

/-- A block `{ x }` or `[ x ]`. -/
def braces (sp : Nat) (r : Role) (t : String) : Node :=
  .mk sp r 0 0 "" [leaf (sp + 1) "{", leaf (sp + 2) t, leaf (sp + 3) "}"]

/-- `let f(x) = if x [a] else [b]`, from the closure on. -/
def branching : Node :=
  .mk 20 .cond 30 40 "" [leaf 21 "if", leaf 22 "x", braces 30 .other "a", leaf 23 "else",
    braces 40 .other "b"]

def branches : Node :=
  .mk 1 .closure 20 0 "" [leaf 2 "f", leaf 3 "(x)", leaf 4 "=", branching]

theorem branches_parsed : Parsed branches := by
  simp [branches, branching, braces, leaf, Parsed, ParsedAll]

/-- **A conditional that is itself a body loses its branches.** In `let f(x) = if x [a] else [b]`
neither branch is counted: the report has no place for them, whichever of them runs. -/
theorem branch_not_counted : Parsed branches ∧ Body (braces 30 .other "a") branches ∧
    Body (braces 40 .other "b") branches ∧
    ∀ w, w = instrument branches → ¬ Counted (braces 30 .other "a") w ∧
      ¬ Counted (braces 40 .other "b") w := by
  have hp : (instrument branches).places = [(21, .openBrace), (40, .closeBrace)] := by decide
  refine ⟨branches_parsed, ?_, ?_, ?_⟩
  · refine .inside (c := branching) (by simp [branches, Node.children]) (.own ?_)
    exact ⟨by simp [branching, Node.children], .inr ⟨rfl, .inl rfl⟩⟩
  · refine .inside (c := branching) (by simp [branches, Node.children]) (.own ?_)
    exact ⟨by simp [branching, Node.children], .inr ⟨rfl, .inr rfl⟩⟩
  · rintro w rfl
    constructor <;> rintro ⟨pre, mid, post, i, j, -, hi, -, -⟩ <;> rw [hp] at hi
    · have := List.mem_of_getElem? hi
      revert this; decide
    · have := List.mem_of_getElem? hi
      revert this; decide

/-- The hypotheses of `body_runs_counted_partial` hold of a conditional that is no body. -/
example : ∃ root n b, Parsed root ∧ Free n root ∧ BodyOf b n ∧ root ≠ n ∧
    (instrument root).places.length = 4 ∧ tokens root = ["#", "if", "x", "{", "a", "}", "else", "{", "b", "}"] := by
  refine ⟨.mk 1 .other 0 0 "" [leaf 2 "#", .mk 20 .cond 30 40 "" [leaf 21 "if", leaf 22 "x",
    braces 30 .other "a", leaf 23 "else", braces 40 .code "b"]], _, _, ?_,
    .child .self (List.mem_cons_of_mem _ (List.mem_singleton.2 rfl)) ?_,
    ⟨List.mem_of_getElem? (i := 2) rfl, .inr ⟨rfl, .inl rfl⟩⟩, ?_, by decide, by decide⟩
  · simp [braces, leaf, Parsed, ParsedAll]
  · rintro ⟨-, ⟨h | h, -⟩ | ⟨h, -⟩⟩ <;> cases h
  · intro h; injection h with h; cases h

/-- `context` with a comment before its body. -/
example : ∃ n, Parsed n ∧ n.role = .context ∧ tokens n = ["context", "{", "a", "}"] ∧
    (instrument n).out.map Piece.render = ["context", " (", "{\n", "__cov_pc(0);\n", "{", "a", "}",
      "\n", "__cov_pc(1);\n", "}", ")"] := by
  refine ⟨.mk 1 .context 30 0 "" [.mk 2 .other 0 0 "context" [], .mk 3 .trivia 0 0 "/**/" [],
    braces 30 .code "a"], ?_, rfl, by decide, by decide +kernel⟩
  simp only [Parsed, ParsedAll, braces, leaf]
  refine ⟨by decide, fun _ => ⟨2, [.mk 3 .trivia 0 0 "/**/" []], braces 30 .code "a", rfl,
    by decide, ?_, rfl⟩, by simp, by simp, by simp⟩
  intro t ht
  rw [List.mem_singleton] at ht
  subst ht
  exact ⟨⟨3, 0, 0, _, rfl⟩, by decide⟩

/-- **A semicolon after a show rule is torn off.** `#show: main;` is rewritten so that the `;`
stands at the start of a line of its own, where Typst reads it as text: the coverage run typesets a
`;` that the program does not. -/
theorem semicolon_torn_off : ∃ root, Parsed root ∧ tokens root = ["#", "show", ":", "main", ";"] ∧
    ∃ pre x, (instrument root).out = pre ++ [.glue x, .src false ";"] ∧ x.toList.getLast? = some '\n' := by
  refine ⟨.mk 1 .other 0 0 "" [leaf 2 "#", .mk 3 .showFn 6 0 "" [leaf 4 "show", leaf 5 ":",
    leaf 6 "main"], leaf 7 ";"], ?_, by decide, ?_⟩
  · simp [leaf, Parsed, ParsedAll]
  · refine ⟨[.src false "#", .src false "show", .src false ":", .glue "{\nlet __cov_show_body = ",
      .src false "main", .glue "\n__it => {", .probe 0], showFnTail, by decide, by decide +kernel⟩

end Tinymist.Coverage
