import Verif.Props.TypliteTable

/-!
# C114: items are marked
-/

namespace Tinymist.Typlite

theorem nested_append {d : Nat} {a b : Text} (ha : Nested d a) (hb : Nested d b) : Nested d (a ++ b) := by
  induction ha with
  | nil d => exact hb
  | char d c t hc _ ih => exact .char d c _ hc (ih hb)
  | tag d c t h1 h2 _ ih => exact .tag d c _ h1 h2 (ih hb)
  | item d t rest h1 _ _ ih2 =>
    have := Nested.item d t _ h1 (ih2 hb)
    simpa only [List.append_assoc] using this

theorem nested_plain (d : Nat) {t : Text} (h : '<' ∉ t) : Nested d t := by
  induction t with
  | nil => exact .nil d
  | cons c t ih =>
    simp only [List.mem_cons, not_or] at h
    exact .char d c t (fun e => h.1 e.symm) (ih h.2)

theorem digits_plain (n : Nat) : '<' ∉ digits n := by
  intro h
  have := Nat.isDigit_of_mem_toDigits (by decide) (by decide) h
  exact absurd this (by decide)

theorem nested_item {d : Nat} {t : Text} (h : Nested (d + 1) t) :
    Nested d (['-', ' '] ++ mark "begin".toList d ++ t ++ mark "end".toList d) := by
  have := Nested.item d t [] h (.nil d)
  have e : "- <!-- typlite:begin:list-item ".toList = ['-', ' '] ++ ("<!-- typlite:".toList ++ "begin".toList ++
    ":list-item ".toList) := by decide
  have e' : "<!-- typlite:end:list-item ".toList = "<!-- typlite:".toList ++ "end".toList ++ ":list-item ".toList := by decide
  rw [e, e'] at this
  unfold mark digits
  simpa only [List.append_assoc, List.append_nil] using this

theorem reduce_nested {ev : Node → M Value} {d : Nat} {ns : List Node}
    (h : ∀ n ∈ ns, ∀ w v w', w.depth = d → ev n w = .ok (v, w') → w'.depth = d ∧ Nested d (value v)) :
    ∀ w t w', w.depth = d → reduceWith ev ns w = .ok (t, w') → w'.depth = d ∧ Nested d t := by
  induction ns with
  | nil =>
    intro w t w' hd hr
    simp only [reduceWith, ret, Except.ok.injEq, Prod.mk.injEq] at hr
    obtain ⟨rfl, rfl⟩ := hr
    exact ⟨hd, .nil d⟩
  | cons n ns ih =>
    intro w t w' hd hr
    rw [reduceWith, andThen] at hr
    split at hr
    · rename_i v w1 hv
      have h1 := h n (by simp) w v w1 hd hv
      rw [andThen] at hr
      split at hr
      · rename_i r w2 hr2
        have h2 := ih (fun m hm => h m (List.mem_cons_of_mem _ hm)) w1 r w2 h1.1 hr2
        simp only [ret, Except.ok.injEq, Prod.mk.injEq] at hr
        obtain ⟨rfl, rfl⟩ := hr
        exact ⟨h2.1, nested_append h1.2 h2.2⟩
      · exact absurd hr (by simp)
    · exact absurd hr (by simp)

theorem note_inv {n : Node} {v v' : Value} {w w' : Worker} (h : note n v w = .ok (v', w')) :
    v' = v ∧ w'.depth = w.depth ∧ w'.assets = w.assets ∧ w'.writes = w.writes := by
  unfold note at h
  split at h <;> (simp only [Except.ok.injEq, Prod.mk.injEq] at h; obtain ⟨rfl, rfl⟩ := h; simp)

theorem andThen_inv {α β : Type} {m : M α} {f : α → M β} {w : Worker} {r : β × Worker} (h : andThen m f w = .ok r) :
    ∃ a w', m w = .ok (a, w') ∧ f a w' = .ok r := by
  unfold andThen at h
  split at h
  · rename_i a w' hm
    exact ⟨a, w', hm, h⟩
  · exact absurd h (by simp)

theorem ret_inv {α : Type} {a b : α} {w w' : Worker} (h : ret a w = .ok (b, w')) : b = a ∧ w' = w := by
  simp only [ret, Except.ok.injEq, Prod.mk.injEq] at h
  exact ⟨h.1.symm, h.2.symm⟩

/-- **C114.** If elements are to be marked, the marks around the items of lists are properly nested in what markup is converted to, and
the number of each is the number of items around it. Missing: markup with calls, rendered code and included files. -/
theorem items_marked_partial (env : Env) (ha : env.annotate = true) (fuel : Nat) (n : Node) (hn : Markup n) (w w' : Worker) (v : Value)
    (h : eval env fuel n w = .ok (v, w')) : w'.depth = w.depth ∧ Nested w.depth (value v) := by
  induction fuel generalizing n w w' v with
  | zero => exact absurd h (by simp [eval, fail])
  | succ fuel ih =>
    rw [eval] at h
    obtain ⟨u, w1, hs, hnote⟩ := andThen_inv h
    obtain ⟨rfl, hd, _, _⟩ := note_inv hnote
    suffices w1.depth = w.depth ∧ Nested w.depth (value v) from ⟨hd.trans this.1, this.2⟩
    clear hnote hd h
    have hred : ∀ (b : List Node), (∀ m ∈ b, Markup m) → ∀ w t w', reduceWith (eval env fuel) b w = .ok (t, w') →
        w'.depth = w.depth ∧ Nested w.depth t := by
      intro b hb w t w' hr
      refine reduce_nested (d := w.depth) ?_ w t w' rfl hr
      intro m hm w2 v2 w3 hw hv
      have := ih m (hb m hm) w2 w3 v2 hv
      rw [hw] at this
      exact this
    have hnone : ∀ {x : Value}, Except.ok (Value.none, w) = (Except.ok (x, w1) : Except Stop (Value × Worker)) →
        w1.depth = w.depth ∧ Nested w.depth (value x) := by
      intro x hx
      simp only [Except.ok.injEq, Prod.mk.injEq] at hx
      obtain ⟨rfl, rfl⟩ := hx
      exact ⟨rfl, .nil _⟩
    have hcont : ∀ {t : Text} {x : Value}, Nested w.depth t →
        Except.ok (Value.content t, w) = (Except.ok (x, w1) : Except Stop (Value × Worker)) →
        w1.depth = w.depth ∧ Nested w.depth (value x) := by
      intro t x ht hx
      simp only [Except.ok.injEq, Prod.mk.injEq] at hx
      obtain ⟨rfl, rfl⟩ := hx
      exact ⟨rfl, ht⟩
    have hbody : ∀ {b : List Node} {x : Value} (pre post : Text), (∀ m ∈ b, Markup m) → '<' ∉ pre → '<' ∉ post →
        andThen (reduceWith (eval env fuel) b) (fun t => ret (Value.content (pre ++ t ++ post))) w = .ok (x, w1) →
        w1.depth = w.depth ∧ Nested w.depth (value x) := by
      intro b x pre post hb h1 h2 hx
      obtain ⟨t, w2, hr, hx⟩ := andThen_inv hx
      obtain ⟨rfl, rfl⟩ := ret_inv hx
      have := hred b hb _ _ _ hr
      exact ⟨this.1, nested_append (nested_append (nested_plain _ h1) this.2) (nested_plain _ h2)⟩
    cases hn with
    | text s hp => exact hcont (nested_plain _ hp) hs
    | linebreak => exact hcont (nested_plain _ (by decide)) hs
    | hash => exact hnone hs
    | code src => exact hnone hs
    | quiet => exact hnone hs
    | int n => exact hnone hs
    | array n => exact hnone hs
    | str s hp =>
      obtain ⟨rfl, rfl⟩ := ret_inv hs
      exact ⟨rfl, nested_plain _ hp⟩
    | closure src b => exact hnone hs
    | error => exact absurd hs (by simp [step, fail])
    | strong b hb => exact hbody ['*', '*'] ['*', '*'] hb (by decide) (by decide) hs
    | emph b hb => exact hbody ['_'] ['_'] hb (by decide) (by decide) hs
    | heading l b hb =>
      refine hbody (b := b) (List.replicate l '#' ++ [' ']) [] hb ?_ (by decide) (by simpa [step] using hs)
      intro hm
      rcases List.mem_append.mp hm with hm | hm
      · exact absurd (List.mem_replicate.mp hm).2 (by decide)
      · exact absurd hm (by decide)
    | item b hb =>
      rw [step] at hs
      simp only [ha, if_true] at hs
      split at hs
      · rename_i t w2 hr
        simp only [Except.ok.injEq, Prod.mk.injEq] at hs
        obtain ⟨rfl, rfl⟩ := hs
        have := hred b hb _ _ _ hr
        simp only at this
        rw [this.1]
        exact ⟨by simp, nested_item this.2⟩
      · exact absurd hs (by simp)
    | enum k b hb =>
      cases k with
      | none => exact hbody (b := b) ['1', '.', ' '] [] hb (by decide) (by decide) (by simpa [step] using hs)
      | some n =>
        refine hbody (b := b) (digits n ++ ['.', ' ']) [] hb ?_ (by decide) (by simpa [step] using hs)
        intro hm
        rcases List.mem_append.mp hm with hm | hm
        · exact digits_plain n hm
        · exact absurd hm (by decide)
    | group b hb => exact hbody (b := b) [] [] hb (by decide) (by decide) (by simpa [step] using hs)
    | wrap src b hb => exact ih b hb _ _ _ hs
    | raw lang block lines src hl hsrc =>
      refine hcont (nested_plain _ ?_) hs
      unfold rawText
      split
      · rw [List.mem_flatMap]
        rintro ⟨l, h1, h2⟩
        rcases List.mem_append.mp h2 with h2 | h2
        · exact hl l h1 h2
        · exact absurd h2 (by decide)
      · split
        · exact hsrc
        · intro hm
          simp only [List.mem_append, List.mem_singleton, List.mem_flatten] at hm
          rcases hm with (hm | ⟨l, h1, h2⟩) | hm
          · exact absurd hm (by decide)
          · exact hl l h1 h2
          · exact absurd hm (by decide)
    | link url hu =>
      refine hcont (nested_plain _ ?_) hs
      split
      · exact hu
      · simp only [List.mem_append, List.mem_cons, List.not_mem_nil, or_false, not_or]
        exact ⟨⟨⟨⟨by decide, hu⟩, by decide, by decide⟩, hu⟩, by decide⟩

/-- A list in an item of another list. -/
example : Markup (.item [.text ['a'], .text ['\n', ' ', ' '], .item [.text ['b']]]) := by
  refine .item _ ?_
  intro n hn
  simp only [List.mem_cons, List.not_mem_nil, or_false] at hn
  rcases hn with rfl | rfl | rfl
  · exact .text _ (by decide)
  · exact .text _ (by decide)
  · refine .item _ ?_
    intro n hn
    simp only [List.mem_cons, List.not_mem_nil, or_false] at hn
    subst hn
    exact .text _ (by decide)

/-- Without marks there are none. -/
theorem items_unmarked (env : Env) (fuel : Nat) (ha : env.annotate = false) (body : List Node) (w w' : Worker) (t : Text)
    (h : reduceWith (eval env fuel) body w = .ok (t, w')) :
    eval env (fuel + 1) (.item body) w = .ok (.content (['-', ' '] ++ t), w') := by
  have hs : step env (eval env fuel) (.item body) w = .ok (.content (['-', ' '] ++ t), w') := by
    rw [step]
    simp [ha, h]
  rw [eval, andThen_ok hs]
  rfl

end Tinymist.Typlite
