import Verif.Spec.Breakpoint

/-!
# C138: a debugged program is the program, with breakpoints at its blocks
-/

namespace Tinymist.Breakpoint

open Spec
open Tinymist.Coverage (Node Role firstSpan lastSpan ShownBy BodyOf Within begins ends)

/-! ### What a step of the worker adds -/

/-- `f` adds something that copies `ts`, with breakpoints that are numbered on. -/
def Adds (f : Worker → Worker) (ts : List String) : Prop :=
  ∀ w, ∃ o p, (f w).out = w.out ++ o ∧ (f w).places = w.places ++ p ∧ copied o = ts
    ∧ numbers o = List.range' w.places.length p.length

theorem copied_append (a b : List Piece) : copied (a ++ b) = copied a ++ copied b := List.filterMap_append

theorem numbers_append (a b : List Piece) : numbers (a ++ b) = numbers a ++ numbers b := List.filterMap_append

theorem adds_id : Adds (fun w => w) [] := fun w => ⟨[], [], by simp, by simp, rfl, rfl⟩

theorem Adds.comp {f g : Worker → Worker} {a b : List String} (hf : Adds f a) (hg : Adds g b) :
    Adds (fun w => g (f w)) (a ++ b) := by
  intro w
  obtain ⟨o, p, h1, h2, h3, h4⟩ := hf w
  obtain ⟨o', p', h1', h2', h3', h4'⟩ := hg (f w)
  refine ⟨o ++ o', p ++ p', by rw [h1', h1, List.append_assoc], by rw [h2', h2, List.append_assoc], ?_, ?_⟩
  · rw [copied_append, h3, h3']
  · rw [numbers_append, h4, h4', h2, List.length_append, List.length_append]
    rw [List.range'_append_1]

theorem adds_glue (t : String) : Adds (emit (.glue t)) [] := fun w => ⟨[.glue t], [], rfl, by simp [emit], rfl, rfl⟩

theorem adds_copy (t : String) : Adds (copy t) (if t = "" then [] else [t]) := by
  intro w
  by_cases h : t = ""
  · exact ⟨[], [], by simp [copy, h], by simp [copy, h], by simp [h, copied], rfl⟩
  · exact ⟨[.src t], [], by simp [copy, h, emit], by simp [copy, h, emit], by simp [h, copied], rfl⟩

theorem adds_cov (sp : Nat) (k : Kind) : Adds (makeCov sp k) [] := by
  intro w
  exact ⟨[.point k w.places.length], [sp], rfl, rfl, rfl, rfl⟩

theorem Adds.congr {f g : Worker → Worker} {a b : List String} (hf : Adds f a) (h : ∀ w, g w = f w) (hab : a = b) :
    Adds g b := by
  intro w
  rw [h, ← hab]
  exact hf w

theorem adds_wrap (a b : Nat) (text : String) {cs : List Node} {ts : List String} (h : Adds (visitAll cs) ts) :
    Adds (fun w => emit (.glue "}\n") (makeCov b .blockEnd (emit (.glue "\n")
      (visitAll cs (copy text (makeCov a .blockStart (emit (.glue "{\n") w)))))))
      ((if text = "" then [] else [text]) ++ ts) :=
  ((((((adds_glue "{\n").comp (adds_cov a .blockStart)).comp (adds_copy text)).comp h).comp (adds_glue "\n")).comp
    (adds_cov b .blockEnd)).comp (adds_glue "}\n") |>.congr (fun _ => rfl) (by simp)

mutual
theorem adds_visit : ∀ n, Parsed n → Adds (visit n) (texts n)
  | .mk sp role b1 b2 text cs, hp => by
    obtain ⟨_, hr, hcs⟩ := hp
    have hall := adds_visitAll cs hcs
    have inner : role ≠ .other → role ≠ .trivia → texts (.mk sp role b1 b2 text cs) = textsAll cs := by
      intro h1 h2
      have : text = "" := Classical.byContradiction fun h => (hr h).elim h1 h2
      simp [texts, this]
    cases role with
    | code => exact (adds_wrap (firstSpan cs) (lastSpan cs) text hall).congr (fun w => by simp only [visit]) (by simp only [texts])
    | loop => exact (adds_bodies b1 0 cs hcs).congr (fun w => by simp only [visit]) (inner (by decide) (by decide)).symm
    | cond => exact (adds_bodies b1 b2 cs hcs).congr (fun w => by simp only [visit]) (inner (by decide) (by decide)).symm
    | closure => exact (adds_bodies b1 0 cs hcs).congr (fun w => by simp only [visit]) (inner (by decide) (by decide)).symm
    | showSet => exact (adds_functors b1 cs hcs).congr (fun w => by simp only [visit]) (inner (by decide) (by decide)).symm
    | showFn => exact (adds_functors b1 cs hcs).congr (fun w => by simp only [visit]) (inner (by decide) (by decide)).symm
    | context => exact ((adds_copy text).comp hall).congr (fun w => by simp only [visit]) (by simp only [texts])
    | trivia => exact ((adds_copy text).comp hall).congr (fun w => by simp only [visit]) (by simp only [texts])
    | other => exact ((adds_copy text).comp hall).congr (fun w => by simp only [visit]) (by simp only [texts])
theorem adds_visitAll : ∀ cs, ParsedAll cs → Adds (visitAll cs) (textsAll cs)
  | [], _ => adds_id.congr (fun w => by simp only [visitAll]) (by simp only [textsAll])
  | c :: cs, hp => ((adds_visit c hp.1).comp (adds_visitAll cs hp.2)).congr (fun w => by simp only [visitAll])
      (by simp only [textsAll])
theorem adds_bodies (b1 b2 : Nat) : ∀ cs, ParsedAll cs → Adds (bodies b1 b2 cs) (textsAll cs)
  | [], _ => adds_id.congr (fun w => by simp only [bodies]) (by simp only [textsAll])
  | c :: cs, hp => by
    by_cases h : b1 = c.span ∨ b2 = c.span
    · exact ((adds_block c hp.1).comp (adds_bodies b1 b2 cs hp.2)).congr (fun w => by simp only [bodies, if_pos h])
        (by simp only [textsAll])
    · exact ((adds_visit c hp.1).comp (adds_bodies b1 b2 cs hp.2)).congr (fun w => by simp only [bodies, if_neg h])
        (by simp only [textsAll])
theorem adds_block : ∀ n, Parsed n → Adds (block n) (texts n)
  | .mk sp role b1 b2 text cs, hp =>
    (adds_wrap (firstSpan cs) (lastSpan cs) text (adds_visitAll cs hp.2.2)).congr (fun w => by simp only [block]) (by simp only [texts])
theorem adds_functors (b : Nat) : ∀ cs, ParsedAll cs → Adds (functors b cs) (textsAll cs)
  | [], _ => adds_id.congr (fun w => by simp only [functors]) (by simp only [textsAll])
  | c :: cs, hp => by
    by_cases h : b = c.span
    · exact ((adds_functor c hp.1).comp (adds_functors b cs hp.2)).congr (fun w => by simp only [functors, if_pos h])
        (by simp only [textsAll])
    · exact ((adds_visit c hp.1).comp (adds_functors b cs hp.2)).congr (fun w => by simp only [functors, if_neg h])
        (by simp only [textsAll])
theorem adds_functor : ∀ n, Parsed n → Adds (functor n) (texts n)
  | .mk sp role b1 b2 text cs, hp =>
    ((((((adds_glue "{\nlet __bp_functor = ").comp (adds_copy text)).comp (adds_visitAll cs hp.2.2)).comp
      (adds_glue "\n__it => {")).comp (adds_cov sp .showStart)).comp (adds_glue "__bp_functor(__it); } }\n"))
      |>.congr (fun w => by simp only [functor]) (by simp [texts])
end

/-- **C138.** The rewritten program has the text of the program, every token, space and comment, in order. -/
theorem texts_kept (root : Node) (hp : Parsed root) : copied (instrument root).out = texts root := by
  obtain ⟨o, p, h1, _, h3, _⟩ := adds_visit root hp ⟨[], []⟩
  unfold instrument
  rw [h1]
  exact h3

/-- **C138.** The breakpoints are numbered in the order of the text, and each number has a place. -/
theorem numbered (root : Node) (hp : Parsed root) :
    numbers (instrument root).out = List.range (instrument root).places.length := by
  obtain ⟨o, p, h1, h2, _, h4⟩ := adds_visit root hp ⟨[], []⟩
  unfold instrument
  rw [h1, h2]
  simpa [List.range_eq_range'] using h4

/-! ### Blocks -/

/-- What the worker has done is kept. -/
def Grows (w w' : Worker) : Prop := ∃ o p, w'.out = w.out ++ o ∧ w'.places = w.places ++ p

theorem Adds.grows {f : Worker → Worker} {ts : List String} (h : Adds f ts) (w : Worker) : Grows w (f w) := by
  obtain ⟨o, p, h1, h2, _⟩ := h w
  exact ⟨o, p, h1, h2⟩

theorem Grows.refl (w : Worker) : Grows w w := ⟨[], [], by simp, by simp⟩

theorem Grows.trans {a b c : Worker} (h : Grows a b) (h' : Grows b c) : Grows a c := by
  obtain ⟨o, p, h1, h2⟩ := h
  obtain ⟨o', p', h1', h2'⟩ := h'
  exact ⟨o ++ o', p ++ p', by rw [h1', h1, List.append_assoc], by rw [h2', h2, List.append_assoc]⟩

theorem get_grow {l p : List Nat} {i x : Nat} (h : l[i]? = some x) : (l ++ p)[i]? = some x := by
  rw [List.getElem?_append_left (List.getElem?_eq_some_iff.1 h).1]
  exact h

theorem stops_grow {b : Node} {w w' : Worker} (h : Stops b w) (g : Grows w w') : Stops b w' := by
  obtain ⟨pre, mid, post, i, j, h1, h2, h3, h4⟩ := h
  obtain ⟨o, p, g1, g2⟩ := g
  refine ⟨pre, mid, post ++ o, i, j, ?_, ?_, ?_, h4⟩
  · rw [g1, h1]; simp only [List.append_assoc]
  · rw [g2]; exact get_grow h2
  · rw [g2]; exact get_grow h3

theorem firstSpan_eq (sp : Nat) (r : Role) (b1 b2 : Nat) (t : String) (cs : List Node) :
    firstSpan cs = begins (.mk sp r b1 b2 t cs) := by
  cases cs <;> rfl

theorem lastSpan_eq (sp : Nat) (r : Role) (b1 b2 : Nat) (t : String) (cs : List Node) :
    lastSpan cs = ends (.mk sp r b1 b2 t cs) := by
  cases cs with
  | nil => rfl
  | cons c cs =>
    cases cs with
    | nil => rfl
    | cons d cs =>
      unfold lastSpan ends
      simp only [Node.children, List.length_cons, List.getLast?_cons_cons]
      rw [if_neg (by omega)]
      cases h : (d :: cs).getLast? with
      | none => rfl
      | some e => rfl

theorem block_stops_here : ∀ n, Parsed n → ∀ w, Stops n (block n w)
  | .mk sp role b1 b2 text cs, hp, w => by
    have hin : Adds (fun w => visitAll cs (copy text w)) (texts (.mk sp role b1 b2 text cs)) :=
      ((adds_copy text).comp (adds_visitAll cs hp.2.2)).congr (fun _ => rfl) (by simp only [texts])
    obtain ⟨o, p, h1, h2, h3, _⟩ := hin (makeCov (firstSpan cs) .blockStart (emit (.glue "{\n") w))
    simp only at h1 h2
    refine ⟨w.out, o, [], w.places.length, w.places.length + 1 + p.length, ?_, ?_, ?_, h3⟩
    · simp only [block, emit, makeCov]
      simp only [emit, makeCov] at h1 h2
      rw [h1, h2]
      have : w.places.length + 1 + p.length = w.places.length + (p.length + 1) := by omega
      simp [this]
    · simp only [block, emit, makeCov]
      simp only [emit, makeCov] at h2
      rw [h2, ← firstSpan_eq]
      simp
    · simp only [block, emit, makeCov]
      simp only [emit, makeCov] at h2
      rw [h2, ← lastSpan_eq]
      have : w.places.length + 1 + p.length = (w.places ++ [firstSpan cs] ++ p).length := by simp; omega
      rw [this, List.getElem?_concat_length]

/-- The three ways a node is gone through. -/
inductive Way where
  | visit
  | block
  | functor
  deriving DecidableEq

def Way.run : Way → Node → Worker → Worker
  | .visit => Breakpoint.visit
  | .block => Breakpoint.block
  | .functor => Breakpoint.functor

theorem Way.grows (y : Way) {n : Node} (hp : Parsed n) (w : Worker) : Grows w (y.run n w) := by
  cases y with
  | visit => exact (adds_visit n hp).grows w
  | block => exact (adds_block n hp).grows w
  | functor => exact (adds_functor n hp).grows w

/-- Going through `n` in the way `y` goes through `m` in the way `z`. -/
def Passes (y : Way) (n : Node) (z : Way) (m : Node) : Prop := ∀ w, ∃ w', Grows (z.run m w') (y.run n w)

theorem Passes.trans {y z u : Way} {a b c : Node} (h : Passes y a z b) (h' : Passes z b u c) : Passes y a u c := by
  intro w
  obtain ⟨w1, g1⟩ := h w
  obtain ⟨w2, g2⟩ := h' w1
  exact ⟨w2, g2.trans g1⟩

theorem parsedAll_mem {cs : List Node} (h : ParsedAll cs) : ∀ c ∈ cs, Parsed c := by
  induction cs with
  | nil => intro c hc; cases hc
  | cons d cs ih =>
    intro c hc
    rcases List.mem_cons.1 hc with rfl | hc
    · exact h.1
    · exact ih h.2 c hc

theorem parsed_children {n c : Node} (h : Parsed n) (hc : c ∈ n.children) : Parsed c := by
  obtain ⟨sp, r, b1, b2, t, cs⟩ := n
  exact parsedAll_mem h.2.2 c hc

theorem parsed_within {m n : Node} (h : Parsed n) (hw : Within m n) : Parsed m := by
  induction hw with
  | self => exact h
  | child _ hc ih => exact parsed_children (ih h) hc

theorem visitAll_passes {cs : List Node} (hp : ParsedAll cs) {c : Node} (hc : c ∈ cs) :
    ∀ w, ∃ w', Grows (visit c w') (visitAll cs w) := by
  induction cs with
  | nil => cases hc
  | cons d cs ih =>
    intro w
    simp only [visitAll]
    rcases List.mem_cons.1 hc with rfl | hc
    · exact ⟨w, (adds_visitAll cs hp.2).grows _⟩
    · exact ih hp.2 hc _

theorem bodies_passes {b1 b2 : Nat} {cs : List Node} (hp : ParsedAll cs) {c : Node} (hc : c ∈ cs) :
    ∀ w, ∃ w', Grows (if b1 = c.span ∨ b2 = c.span then block c w' else visit c w') (bodies b1 b2 cs w) := by
  induction cs with
  | nil => cases hc
  | cons d cs ih =>
    intro w
    rcases List.mem_cons.1 hc with rfl | hc
    · refine ⟨w, ?_⟩
      by_cases h : b1 = c.span ∨ b2 = c.span
      · simp only [bodies, if_pos h]; exact (adds_bodies b1 b2 cs hp.2).grows _
      · simp only [bodies, if_neg h]; exact (adds_bodies b1 b2 cs hp.2).grows _
    · by_cases h : b1 = d.span ∨ b2 = d.span
      · simp only [bodies, if_pos h]; exact ih hp.2 hc _
      · simp only [bodies, if_neg h]; exact ih hp.2 hc _

theorem functors_passes {b : Nat} {cs : List Node} (hp : ParsedAll cs) {c : Node} (hc : c ∈ cs) :
    ∀ w, ∃ w', Grows (if b = c.span then functor c w' else visit c w') (functors b cs w) := by
  induction cs with
  | nil => cases hc
  | cons d cs ih =>
    intro w
    rcases List.mem_cons.1 hc with rfl | hc
    · refine ⟨w, ?_⟩
      by_cases h : b = c.span
      · simp only [functors, if_pos h]; exact (adds_functors b cs hp.2).grows _
      · simp only [functors, if_neg h]; exact (adds_functors b cs hp.2).grows _
    · by_cases h : b = d.span
      · simp only [functors, if_pos h]; exact ih hp.2 hc _
      · simp only [functors, if_neg h]; exact ih hp.2 hc _

/-- A child is gone through, in a way that depends on what it is to its parent, if the parent is visited. -/
theorem visit_child {n c : Node} (hp : Parsed n) (hc : c ∈ n.children) :
    ∃ z, Passes .visit n z c ∧ (z = .functor → ShownBy c n) ∧ (BodyOf c n → z = .block) ∧ (z = .block → BodyOf c n) := by
  obtain ⟨sp, role, b1, b2, text, cs⟩ := n
  have hcs : ParsedAll cs := hp.2.2
  have hc' : c ∈ cs := hc
  have hsp : c.span ≠ 0 := by
    have := parsedAll_mem hcs c hc'
    obtain ⟨s, _, _, _, _, _⟩ := c
    exact this.1
  have plain : ∀ (f : Worker → Worker), (∀ w, visit (.mk sp role b1 b2 text cs) w = visitAll cs (f w)) →
      Passes .visit (.mk sp role b1 b2 text cs) .visit c := by
    intro f hf w
    obtain ⟨w', g⟩ := visitAll_passes hcs hc' (f w)
    exact ⟨w', by show Grows (visit c w') (visit _ w); rw [hf]; exact g⟩
  have viaBodies : ∀ x y, (∀ w, visit (.mk sp role b1 b2 text cs) w = bodies x y cs w) →
      Passes .visit (.mk sp role b1 b2 text cs) (if x = c.span ∨ y = c.span then .block else .visit) c := by
    intro x y hf w
    obtain ⟨w', g⟩ := bodies_passes (b1 := x) (b2 := y) hcs hc' w
    refine ⟨w', ?_⟩
    show Grows _ (visit _ w)
    rw [hf]
    by_cases h : x = c.span ∨ y = c.span
    · rw [if_pos h] at g ⊢; exact g
    · rw [if_neg h] at g ⊢; exact g
  have viaFunctors : (∀ w, visit (.mk sp role b1 b2 text cs) w = functors b1 cs w) →
      Passes .visit (.mk sp role b1 b2 text cs) (if b1 = c.span then .functor else .visit) c := by
    intro hf w
    obtain ⟨w', g⟩ := functors_passes (b := b1) hcs hc' w
    refine ⟨w', ?_⟩
    show Grows _ (visit _ w)
    rw [hf]
    by_cases h : b1 = c.span
    · rw [if_pos h] at g ⊢; exact g
    · rw [if_neg h] at g ⊢; exact g
  have noBody : ∀ {z : Way}, (role ≠ .loop) → role ≠ .closure → role ≠ .cond →
      z ≠ .block → (BodyOf c (.mk sp role b1 b2 text cs) → z = .block) ∧ (z = .block → BodyOf c (.mk sp role b1 b2 text cs)) := by
    intro z h1 h2 h3 hz
    refine ⟨fun h => ?_, fun h => absurd h hz⟩
    rcases h.2 with ⟨h | h, _⟩ | ⟨h, _⟩
    · exact absurd h h1
    · exact absurd h h2
    · exact absurd h h3
  cases role with
  | code =>
    refine ⟨.visit, ?_, (by intro h; cases h), noBody (by decide) (by decide) (by decide) (by decide)⟩
    intro w
    obtain ⟨w', g⟩ := visitAll_passes hcs hc' (copy text (makeCov (firstSpan cs) .blockStart (emit (.glue "{\n") w)))
    refine ⟨w', ?_⟩
    show Grows (visit c w') (visit _ w)
    simp only [visit]
    exact ((g.trans ((adds_glue "\n").grows _)).trans ((adds_cov _ _).grows _)).trans ((adds_glue "}\n").grows _)
  | loop =>
    refine ⟨_, viaBodies b1 0 (fun w => by simp only [visit]), ?_, ?_, ?_⟩
    · intro h; split at h <;> cases h
    · intro h
      rcases h.2 with ⟨_, h⟩ | ⟨h, _⟩
      · exact if_pos (.inl h)
      · cases h
    · intro h
      split at h
      · rename_i h'
        rcases h' with h' | h'
        · exact ⟨hc, .inl ⟨.inl rfl, h'⟩⟩
        · exact absurd h'.symm hsp
      · cases h
  | closure =>
    refine ⟨_, viaBodies b1 0 (fun w => by simp only [visit]), ?_, ?_, ?_⟩
    · intro h; split at h <;> cases h
    · intro h
      rcases h.2 with ⟨_, h⟩ | ⟨h, _⟩
      · exact if_pos (.inl h)
      · cases h
    · intro h
      split at h
      · rename_i h'
        rcases h' with h' | h'
        · exact ⟨hc, .inl ⟨.inr rfl, h'⟩⟩
        · exact absurd h'.symm hsp
      · cases h
  | cond =>
    refine ⟨_, viaBodies b1 b2 (fun w => by simp only [visit]), ?_, ?_, ?_⟩
    · intro h; split at h <;> cases h
    · intro h
      rcases h.2 with ⟨h | h, _⟩ | ⟨_, h⟩
      · cases h
      · cases h
      · exact if_pos h
    · intro h
      split at h
      · exact ⟨hc, .inr ⟨rfl, ‹_›⟩⟩
      · cases h
  | showSet =>
    refine ⟨_, viaFunctors (fun w => by simp only [visit]), ?_, noBody (by decide) (by decide) (by decide) (by split <;> decide)⟩
    intro h
    split at h
    · exact ⟨hc, .inl rfl, ‹_›⟩
    · cases h
  | showFn =>
    refine ⟨_, viaFunctors (fun w => by simp only [visit]), ?_, noBody (by decide) (by decide) (by decide) (by split <;> decide)⟩
    intro h
    split at h
    · exact ⟨hc, .inr rfl, ‹_›⟩
    · cases h
  | context =>
    exact ⟨.visit, plain (copy text) (fun w => by simp only [visit]), (by intro h; cases h), noBody (by decide) (by decide) (by decide) (by decide)⟩
  | trivia =>
    exact ⟨.visit, plain (copy text) (fun w => by simp only [visit]), (by intro h; cases h), noBody (by decide) (by decide) (by decide) (by decide)⟩
  | other =>
    exact ⟨.visit, plain (copy text) (fun w => by simp only [visit]), (by intro h; cases h), noBody (by decide) (by decide) (by decide) (by decide)⟩

theorem block_child {n c : Node} (hp : Parsed n) (hc : c ∈ n.children) : Passes .block n .visit c := by
  obtain ⟨sp, role, b1, b2, text, cs⟩ := n
  intro w
  obtain ⟨w', g⟩ := visitAll_passes (hp.2.2 : ParsedAll cs) (hc : c ∈ cs)
    (copy text (makeCov (firstSpan cs) .blockStart (emit (.glue "{\n") w)))
  refine ⟨w', ?_⟩
  show Grows (visit c w') (block _ w)
  simp only [block]
  exact ((g.trans ((adds_glue "\n").grows _)).trans ((adds_cov _ _).grows _)).trans ((adds_glue "}\n").grows _)

theorem functor_child {n c : Node} (hp : Parsed n) (hc : c ∈ n.children) : Passes .functor n .visit c := by
  obtain ⟨sp, role, b1, b2, text, cs⟩ := n
  intro w
  obtain ⟨w', g⟩ := visitAll_passes (hp.2.2 : ParsedAll cs) (hc : c ∈ cs)
    (copy text (emit (.glue "{\nlet __bp_functor = ") w))
  refine ⟨w', ?_⟩
  show Grows (visit c w') (functor _ w)
  simp only [functor]
  exact ((g.trans ((adds_glue "\n__it => {").grows _)).trans ((adds_cov _ _).grows _)).trans ((adds_glue _).grows _)

theorem child_passed {n c : Node} (hp : Parsed n) (hc : c ∈ n.children) (y : Way) :
    ∃ z, Passes y n z c ∧ (z = .functor → ShownBy c n) := by
  cases y with
  | visit => obtain ⟨z, h1, h2, _⟩ := visit_child hp hc; exact ⟨z, h1, h2⟩
  | block => exact ⟨.visit, block_child hp hc, fun h => by cases h⟩
  | functor => exact ⟨.visit, functor_child hp hc, fun h => by cases h⟩

theorem within_passed {n m : Node} (hp : Parsed n) (hw : Within m n) : ∃ z, Passes .visit n z m := by
  induction hw with
  | self => exact ⟨.visit, fun w => ⟨w, Grows.refl _⟩⟩
  | child hw hc ih =>
    obtain ⟨z, hz⟩ := ih hp
    obtain ⟨z', hz', _⟩ := child_passed (parsed_within hp hw) hc z
    exact ⟨z', hz.trans hz'⟩

theorem code_stops {n : Node} (hp : Parsed n) (hr : n.role = .code) {z : Way} (hz : z ≠ .functor) (w : Worker) :
    Stops n (z.run n w) := by
  cases z with
  | functor => exact absurd rfl hz
  | block => exact block_stops_here n hp w
  | visit =>
    have e : visit n w = block n w := by
      obtain ⟨sp, role, b1, b2, text, cs⟩ := n
      have hr : role = .code := hr
      subst hr
      simp only [visit, block]
    show Stops n (visit n w)
    rw [e]
    exact block_stops_here n hp w

/-- **C138.** Every block of code in the program, unless it is what a show rule does, has a breakpoint where it begins and one
where it ends, and between the two stands the block and nothing else. -/
theorem block_stops (root b : Node) (hp : Parsed root) (ho : Occurs b root) (hb : b.role = .code) :
    Stops b (instrument root) := by
  have key : ∃ z, z ≠ .functor ∧ Parsed b ∧ Passes .visit root z b := by
    cases ho with
    | self => exact ⟨.visit, by decide, hp, fun w => ⟨w, Grows.refl _⟩⟩
    | child hw hc hs =>
      obtain ⟨y, hy⟩ := within_passed hp hw
      obtain ⟨z, hz, hf⟩ := child_passed (parsed_within hp hw) hc y
      exact ⟨z, fun h => hs (hf h), parsed_children (parsed_within hp hw) hc, hy.trans hz⟩
  obtain ⟨z, hz, hpb, hpass⟩ := key
  obtain ⟨w', g⟩ := hpass ⟨[], []⟩
  exact stops_grow (code_stops hpb hb hz w') g

/-- **C138.** So has every body of a loop, closure or conditional that is itself neither a body nor what a show rule does.
Missing: the bodies of the others, see `branch_without_stop`. -/
theorem body_stops_partial (root n b : Node) (hp : Parsed root)
    (hn : n = root ∨ ∃ m, Within m root ∧ n ∈ m.children ∧ ¬ ShownBy n m ∧ ¬ BodyOf n m)
    (hb : BodyOf b n) : Stops b (instrument root) := by
  have key : Parsed n ∧ Passes .visit root .visit n := by
    rcases hn with rfl | ⟨m, hw, hc, hs, hnb⟩
    · exact ⟨hp, fun w => ⟨w, Grows.refl _⟩⟩
    · have hpm := parsed_within hp hw
      refine ⟨parsed_children hpm hc, ?_⟩
      obtain ⟨y, hy⟩ := within_passed hp hw
      cases y with
      | block => exact hy.trans (block_child hpm hc)
      | functor => exact hy.trans (functor_child hpm hc)
      | visit =>
        obtain ⟨z, hz, h1, _, h2⟩ := visit_child hpm hc
        cases z with
        | visit => exact hy.trans hz
        | block => exact absurd (h2 rfl) hnb
        | functor => exact absurd (h1 rfl) hs
  obtain ⟨hpn, hpass⟩ := key
  obtain ⟨z, hz, _, hzb, _⟩ := visit_child hpn hb.1
  rw [hzb hb] at hz
  obtain ⟨w', g⟩ := (hpass.trans hz) ⟨[], []⟩
  exact stops_grow (block_stops_here b (parsed_children hpn hb.1) w') g

/-! ### Examples and limits -/

/-- A leaf. -/
def leaf (sp : Nat) (t : String) : Node := .mk sp .other 0 0 t []

/-- `#{1}a`. -/
def inLine : Node := .mk 1 .other 0 0 "" [leaf 2 "#", .mk 3 .code 0 0 "" [leaf 4 "{", leaf 5 "1", leaf 6 "}"], leaf 7 "a"]

example : Parsed inLine ∧ Occurs (.mk 3 .code 0 0 "" [leaf 4 "{", leaf 5 "1", leaf 6 "}"]) inLine := by
  refine ⟨by simp [inLine, leaf, Parsed, ParsedAll], .child .self (by simp [inLine, Node.children]) ?_⟩
  rintro ⟨_, h, _⟩
  rcases h with h | h <;> cases h

/-- **C138.** A block in the middle of a line ends its line in the rewritten program: `#{1}a`, which is typeset without a
space, is rewritten to a block and an `a` on the next line. -/
theorem line_broken : Parsed inLine ∧ texts inLine = ["#", "{", "1", "}", "a"]
    ∧ ∃ pre, (instrument inLine).out = pre ++ [.glue "}\n", .src "a"] := by
  refine ⟨by simp [inLine, leaf, Parsed, ParsedAll], by decide, ?_⟩
  exact ⟨[.src "#", .glue "{\n", .point .blockStart 0, .src "{", .src "1", .src "}", .glue "\n", .point .blockEnd 1], by decide⟩

/-- `#show: set text(red)`. -/
def showsSet : Node :=
  .mk 1 .other 0 0 "" [leaf 2 "#", .mk 3 .showSet 6 0 "" [leaf 4 "show", leaf 5 ":",
    .mk 6 .other 0 0 "" [leaf 7 "set", leaf 8 " ", leaf 9 "text(red)"]]]

/-- **C138.** A show rule that sets something is rewritten to a definition by `set`, which is no expression, and a call. -/
theorem show_set_called : Parsed showsSet ∧ ∃ pre post,
    (instrument showsSet).out = pre ++ [.glue "{\nlet __bp_functor = ", .src "set"] ++ post
      ∧ Piece.glue "__bp_functor(__it); } }\n" ∈ post := by
  refine ⟨by simp [showsSet, leaf, Parsed, ParsedAll], ?_⟩
  exact ⟨[.src "#", .src "show", .src ":"], [.src " ", .src "text(red)", .glue "\n__it => {", .point .showStart 0,
    .glue "__bp_functor(__it); } }\n"], by decide, by decide⟩

/-- `#if a [b] else if c [d]`. -/
def branches : Node :=
  .mk 1 .other 0 0 "" [leaf 2 "#", .mk 3 .cond 6 9 "" [leaf 4 "if", leaf 5 "a", .mk 6 .other 0 0 "" [leaf 7 "[b]"], leaf 8 "else",
    .mk 9 .cond 12 0 "" [leaf 10 "if", leaf 11 "c", .mk 12 .other 0 0 "" [leaf 13 "[d]"]]]]

/-- **C138.** The branches of an `else if` have no breakpoints, unless they are blocks of code: the debugger cannot stop
in `d` here. -/
theorem branch_without_stop : Parsed branches
    ∧ (∃ n, Within n branches ∧ BodyOf (.mk 12 .other 0 0 "" [leaf 13 "[d]"]) n)
    ∧ 13 ∉ (instrument branches).places := by
  refine ⟨by simp [branches, leaf, Parsed, ParsedAll], ?_, by decide⟩
  refine ⟨.mk 9 .cond 12 0 "" [leaf 10 "if", leaf 11 "c", .mk 12 .other 0 0 "" [leaf 13 "[d]"]], ?_, ?_⟩
  · refine .child (m := .mk 3 .cond 6 9 "" [leaf 4 "if", leaf 5 "a", .mk 6 .other 0 0 "" [leaf 7 "[b]"], leaf 8 "else",
      .mk 9 .cond 12 0 "" [leaf 10 "if", leaf 11 "c", .mk 12 .other 0 0 "" [leaf 13 "[d]"]]]) (.child .self ?_) ?_
    · simp [branches, Node.children]
    · simp [Node.children]
  · exact ⟨by simp [Node.children], .inr ⟨rfl, .inl rfl⟩⟩

/-! ### Sessions -/

/-- **C138.** A breakpoint that is switched on stops a program that passes it, at the place it was made for, and no other
does. -/
theorem stops_where_enabled (s : Session) (file : Nat) (root : Node) (hp : Parsed root) {kind : Kind} {i : Nat}
    (hi : Piece.point kind i ∈ (instrument root).out) :
    ∃ w s', instrumentFile (some s) file root = some (w, s') ∧ w = instrument root ∧ s'.enabled = s.enabled
      ∧ ((file, i, kind) ∈ s.enabled → ∃ sp, w.places[i]? = some sp ∧ pass (some s') file i kind = some sp)
      ∧ ((file, i, kind) ∉ s.enabled → pass (some s') file i kind = none) := by
  refine ⟨_, _, rfl, rfl, rfl, ?_, ?_⟩
  · intro he
    have hlt : i < (instrument root).places.length := by
      have : i ∈ numbers (instrument root).out := List.mem_filterMap.2 ⟨_, hi, rfl⟩
      rw [numbered root hp, List.mem_range] at this
      exact this
    refine ⟨(instrument root).places[i], List.getElem?_eq_getElem hlt, ?_⟩
    simp [pass, check, handle, he, List.getElem?_eq_getElem hlt]
  · intro he
    simp [pass, check, he]

theorem text_glue (p s q n r u v x y z i a h o : String) (e1 : p ++ s = i ++ a) (e2 : u ++ s ++ v = h ++ o)
    (e3 : x ++ y = z) : p ++ s ++ q ++ n ++ r ++ u ++ s ++ v ++ n ++ x ++ y = i ++ a ++ q ++ n ++ r ++ h ++ o ++ n ++ z := by
  have e5 : ∀ t : String, t ++ u ++ s ++ v = t ++ h ++ o := by
    intro t
    rw [String.append_assoc, String.append_assoc, ← String.append_assoc (s₁ := u), e2, ← String.append_assoc]
  rw [e1, e5, String.append_assoc (s₂ := x), e3]

/-- **C138.** The text of a breakpoint asks the function for its kind about its number, and calls the handler of its kind
with it. -/
theorem point_text (k : Kind) (n : Nat) : ∃ ask handler, functions.lookup ask = some (k, false)
    ∧ functions.lookup handler = some (k, true)
    ∧ (Piece.point k n).render = "if " ++ ask ++ "(" ++ toString n ++ ") {" ++ handler ++ "(" ++ toString n ++ ", (:)); };\n" := by
  have key : ∀ (s a h : String), "if __breakpoint_" ++ s = "if " ++ a → "__breakpoint_" ++ s ++ "_handle(" = h ++ "(" →
      k.toStr = s → (Piece.point k n).render =
        "if " ++ a ++ "(" ++ toString n ++ ") {" ++ h ++ "(" ++ toString n ++ ", (:)); };\n" := by
    intro s a h e1 e2 e3
    have e4 : ", (:)); " ++ "};\n" = ", (:)); };\n" := by decide
    show pointText k.toStr (toString n) = _
    rw [e3]
    unfold pointText
    exact text_glue _ _ _ _ _ _ _ _ _ _ _ _ _ _ e1 e2 e4
  cases k
  · exact ⟨"__breakpoint_block_start", "__breakpoint_block_start_handle", by decide, by decide,
      key _ _ _ (by decide) (by decide) rfl⟩
  · exact ⟨"__breakpoint_block_end", "__breakpoint_block_end_handle", by decide, by decide,
      key _ _ _ (by decide) (by decide) rfl⟩
  · exact ⟨"__breakpoint_show_start", "__breakpoint_show_start_handle", by decide, by decide,
      key _ _ _ (by decide) (by decide) rfl⟩

/-- **C138.** Taking the session away works and says so; without a session no breakpoint is on. -/
theorem session_removed (current : Option Session) (file id : Nat) (kind : Kind) :
    setSession current none = (true, none) ∧ check (setSession current none).2 file id kind = false := ⟨rfl, rfl⟩

/-- **C138.** But no session is ever there: setting one is refused, always, even if there is none. -/
theorem no_session_ever (calls : List (Option Session)) : sessions calls none = none := by
  unfold sessions
  induction calls with
  | nil => rfl
  | cons c calls ih =>
    rw [List.foldl_cons]
    cases c with
    | none => exact ih
    | some s => exact ih

/-- **C138.** So no file can be debugged, and no program ever stops. -/
theorem never_stops (calls : List (Option Session)) (s : Session) (file : Nat) (root : Node) (i : Nat) (kind : Kind) :
    (setSession (sessions calls none) (some s)).1 = false ∧ instrumentFile (sessions calls none) file root = none
      ∧ pass (sessions calls none) file i kind = none := by
  rw [no_session_ever]
  exact ⟨rfl, rfl, rfl⟩

end Tinymist.Breakpoint
