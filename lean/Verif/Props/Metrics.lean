import Verif.Spec.Metrics

/-!
# The fonts of a document (C127)
-/

namespace Tinymist.Metrics

open Spec

variable {F S I P R : Type} [DecidableEq F] [DecidableEq R]

/-- The texts one after the other. -/
def workTexts (w : World F S I P R) (m : List (F × Value P)) : List (F × List (Mark S)) → Option (List (F × Value P))
  | [] => some m
  | t :: rest =>
    match workText w m t.1 t.2 with
    | none => none
    | some m' => workTexts w m' rest

theorem workTexts_append (w : World F S I P R) (a b : List (F × List (Mark S))) : ∀ m,
    workTexts w m (a ++ b) = match workTexts w m a with | none => none | some m' => workTexts w m' b := by
  induction a with
  | nil => intro m; rfl
  | cons t a ih =>
    intro m
    simp only [List.cons_append, workTexts]
    cases workText w m t.1 t.2 with
    | none => rfl
    | some m' => exact ih m'

theorem workItem_texts (w : World F S I P R) (i : Item F S) : ∀ m, workItem w m i = workTexts w m (textsOf i) := by
  refine Item.rec (motive_1 := fun i => ∀ m, workItem w m i = workTexts w m (textsOf i))
    (motive_2 := fun is => ∀ m, workItems w m is = workTexts w m (textsIn is)) ?_ ?_ ?_ ?_ ?_ i
  · intro f gs m
    simp only [workItem, textsOf, workTexts]
    cases workText w m f gs <;> rfl
  · intro items ih m
    simp only [workItem, textsOf]
    exact ih m
  · intro m
    simp only [workItem, textsOf, workTexts]
  · intro m
    simp only [workItems, textsIn, workTexts]
  · intro i is ih1 ih2 m
    simp only [workItems, textsIn]
    rw [workTexts_append, ← ih1 m]
    cases workItem w m i with
    | none => rfl
    | some m' => exact ih2 m'

theorem workItems_texts (w : World F S I P R) (is : List (Item F S)) : ∀ m, workItems w m is = workTexts w m (textsIn is) := by
  intro m
  have := workItem_texts w (.group is) m
  simpa only [workItem, textsOf] using this

theorem workPages_texts (w : World F S I P R) (ps : List (List (Item F S))) : ∀ m,
    workPages w m ps = workTexts w m (texts ps) := by
  induction ps with
  | nil => intro m; rfl
  | cons p ps ih =>
    intro m
    simp only [workPages, texts, List.flatMap_cons]
    rw [workTexts_append, ← workItems_texts]
    cases workItems w m p with
    | none => rfl
    | some m' => exact ih m'

theorem lookup_filter_ne (m : List (F × Value P)) (f g : F) (h : g ≠ f) :
    (m.filter (fun e => e.1 ≠ f)).lookup g = m.lookup g := by
  induction m with
  | nil => rfl
  | cons e m ih =>
    by_cases he : e.1 = f
    · have hg : (g == e.1) = false := by
        rw [he]
        exact beq_false_of_ne h
      rw [List.filter_cons_of_neg (by simp [he]), ih, List.lookup_cons, hg]
    · rw [List.filter_cons_of_pos (by simp [he]), List.lookup_cons, List.lookup_cons, ih]

theorem get_set (m : List (F × Value P)) (f g : F) (v : Value P) :
    get (set m f v) g = if g = f then some v else get m g := by
  unfold get set
  by_cases h : g = f
  · rw [List.lookup_cons, h, if_pos rfl]
    simp
  · have hg : (g == f) = false := beq_false_of_ne h
    rw [List.lookup_cons, hg, if_neg h]
    exact lookup_filter_ne m f g h

/-- What the map says after some texts. -/
structure Told (w : World F S I P R) (ts : List (F × List (Mark S))) (m : List (F × Value P)) : Prop where
  one : (m.map (·.1)).Nodup
  there : ∀ f, (∃ v, get m f = some v) ↔ ∃ gs, (f, gs) ∈ ts
  uses : ∀ f v, get m f = some v → v.uses = glyphs ts f
  first : ∀ f v, get m f = some v → ∀ p, v.first = some p ↔ First w ts f p

theorem place_iff (w : World F S I P R) (hw : Proper w) (g : Mark S) (p : Place P) : place w g = some p ↔ From w g p := by
  unfold place From
  constructor
  · intro h
    cases hr : w.range g.span with
    | none => simp [hr] at h
    | some x =>
      obtain ⟨id, lo, hi⟩ := x
      have hlt := hw _ _ _ _ hr
      simp only [hr] at h
      cases hl : w.lineColumn id (min (lo + g.offset) (hi - 1)) with
      | none => simp [hl] at h
      | some x =>
        obtain ⟨l, c⟩ := x
        simp only [hl] at h
        cases hp : w.pathOf id with
        | none => simp [hp] at h
        | some q =>
          simp only [hp, Option.some.injEq] at h
          subst h
          refine ⟨id, lo, hi, l, c, rfl, ?_, hp, rfl, rfl⟩
          rw [← hl]
          congr 1
          split <;> omega
  · rintro ⟨id, lo, hi, l, c, hr, hl, hp, h1, h2⟩
    have hlt := hw _ _ _ _ hr
    have he : min (lo + g.offset) (hi - 1) = if lo + g.offset < hi then lo + g.offset else hi - 1 := by
      split <;> omega
    simp only [hr, he, hl, hp]
    obtain ⟨a, b, d⟩ := p
    simp only at h1 h2
    rw [h1, h2]

theorem glyphs_append (a b : List (F × List (Mark S))) (f : F) : glyphs (a ++ b) f = glyphs a f + glyphs b f := by
  simp [glyphs, List.filter_append]

theorem glyphs_one (g f : F) (gs : List (Mark S)) : glyphs [(g, gs)] f = if g = f then gs.length else 0 := by
  unfold glyphs
  by_cases h : g = f <;> simp [h]

/-- The first place after one more text. -/
theorem first_snoc (w : World F S I P R) (hw : Proper w) (ts : List (F × List (Mark S))) (g f : F) (gs : List (Mark S)) (p : Place P) :
    First w (ts ++ [(g, gs)]) f p ↔ First w ts f p ∨ ((∀ q, ¬ First w ts f q) ∧ g = f ∧ Shows w (f, gs) p) := by
  have none_iff : (∀ q, ¬ First w ts f q) ↔ ∀ t ∈ ts, t.1 = f → ∀ q, ¬ Shows w t q := by
    constructor
    · intro h
      -- otherwise there is a first one
      suffices H : ∀ l : List (F × List (Mark S)), (∃ t ∈ l, t.1 = f ∧ ∃ q, Shows w t q) → ∃ q, First w l f q by
        intro t ht hf q hs
        obtain ⟨q', hq⟩ := H ts ⟨t, ht, hf, q, hs⟩
        exact h q' hq
      intro l
      induction l with
      | nil => rintro ⟨t, ht, -⟩; simp at ht
      | cons a l ih =>
        rintro ⟨t, ht, hf, q, hs⟩
        by_cases ha : a.1 = f ∧ ∃ q, Shows w a q
        · obtain ⟨h1, q', h2⟩ := ha
          obtain ⟨a1, a2⟩ := a
          obtain rfl : a1 = f := h1
          exact ⟨q', [], a2, l, rfl, h2, by simp⟩
        · rcases List.mem_cons.mp ht with rfl | ht
          · exact absurd ⟨hf, q, hs⟩ ha
          · obtain ⟨q', pre, gs', post, he, h1, h2⟩ := ih ⟨t, ht, hf, q, hs⟩
            refine ⟨q', a :: pre, gs', post, by rw [he]; rfl, h1, ?_⟩
            intro x hx hxf y hy
            rcases List.mem_cons.mp hx with rfl | hx
            · exact ha ⟨hxf, y, hy⟩
            · exact h2 x hx hxf y hy
    · rintro h q ⟨pre, gs', post, he, hs, -⟩
      exact h (f, gs') (by rw [he]; simp) rfl q hs
  constructor
  · rintro ⟨pre, gs', post, he, hs, hall⟩
    rcases List.eq_nil_or_concat post with rfl | ⟨post', x, rfl⟩
    · have he' : ts ++ [(g, gs)] = pre ++ [(f, gs')] := he
      have h1 := List.append_inj' he' rfl
      obtain ⟨rfl, h2⟩ := h1
      simp only [List.cons.injEq, Prod.mk.injEq, and_true] at h2
      obtain ⟨rfl, rfl⟩ := h2
      exact .inr ⟨none_iff.mpr hall, rfl, hs⟩
    · have he' : ts ++ [(g, gs)] = (pre ++ (f, gs') :: post') ++ [x] := by
        rw [he]
        simp
      have h1 := List.append_inj' he' rfl
      exact .inl ⟨pre, gs', post', h1.1, hs, hall⟩
  · rintro (⟨pre, gs', post, he, hs, hall⟩ | ⟨hn, rfl, hs⟩)
    · exact ⟨pre, gs', post ++ [(g, gs)], by rw [he]; simp, hs, hall⟩
    · exact ⟨ts, gs, [], rfl, hs, none_iff.mp hn⟩

theorem set_nodup (m : List (F × Value P)) (f : F) (v : Value P) (h : (m.map (·.1)).Nodup) : ((set m f v).map (·.1)).Nodup := by
  unfold set
  rw [List.map_cons, List.nodup_cons]
  refine ⟨?_, ?_⟩
  · intro hm
    obtain ⟨e, he, h1⟩ := List.mem_map.mp hm
    have := (List.mem_filter.mp he).2
    simp [h1] at this
  · exact h.sublist (List.Sublist.map _ List.filter_sublist)

theorem told_step (w : World F S I P R) (hw : Proper w) {ts : List (F × List (Mark S))} {m m' : List (F × Value P)} {f : F}
    {gs : List (Mark S)} (hg : gs.length < 2 ^ 32) (ht : Told w ts m) (h : workText w m f gs = some m') :
    Told w (ts ++ [(f, gs)]) m' := by
  unfold workText at h
  simp only [Nat.mod_eq_of_lt hg] at h
  split at h
  · simp only [Option.some.injEq] at h
    subst h
    have hold : ((get m f).getD { uses := 0, first := none }).uses = glyphs ts f := by
      cases hv : get m f with
      | none =>
        have hno : ∀ gs, (f, gs) ∉ ts := fun gs hm => by
          obtain ⟨v, hv'⟩ := (ht.there f).mpr ⟨gs, hm⟩
          rw [hv] at hv'
          simp at hv'
        have : ts.filter (fun t => t.1 = f) = [] := by
          rw [List.filter_eq_nil_iff]
          rintro ⟨a, b⟩ hm he
          simp only [decide_eq_true_eq] at he
          exact hno b (he ▸ hm)
        simp [glyphs, this]
      | some v => exact ht.uses f v hv
    have hfirst : ∀ p, ((get m f).getD { uses := 0, first := none }).first = some p ↔ First w ts f p := by
      intro p
      cases hv : get m f with
      | none =>
        have hno : ∀ gs, (f, gs) ∉ ts := fun gs hm => by
          obtain ⟨v, hv'⟩ := (ht.there f).mpr ⟨gs, hm⟩
          rw [hv] at hv'
          simp at hv'
        simp only [Option.getD_none, reduceCtorEq, false_iff]
        rintro ⟨pre, gs', post, he, -, -⟩
        exact hno gs' (by rw [he]; simp)
      | some v => exact ht.first f v hv p
    refine ⟨set_nodup _ _ _ ht.one, ?_, ?_, ?_⟩
    · intro g
      rw [get_set]
      by_cases hgf : g = f
      · simp [hgf]
      · rw [if_neg hgf, ht.there g]
        constructor
        · rintro ⟨gs', hm⟩
          exact ⟨gs', by simp [hm]⟩
        · rintro ⟨gs', hm⟩
          simp only [List.mem_append, List.mem_singleton, Prod.mk.injEq] at hm
          rcases hm with hm | ⟨h1, -⟩
          · exact ⟨gs', hm⟩
          · exact absurd h1 hgf
    · intro g v hv
      rw [get_set] at hv
      rw [glyphs_append, glyphs_one]
      by_cases hgf : g = f
      · subst hgf
        rw [if_pos rfl] at hv
        simp only [Option.some.injEq] at hv
        subst hv
        rw [if_pos rfl, hold]
      · rw [if_neg hgf] at hv
        rw [if_neg (fun h => hgf h.symm), ht.uses g v hv]
        rfl
    · intro g v hv p
      rw [get_set] at hv
      rw [first_snoc w hw]
      by_cases hgf : g = f
      · subst hgf
        rw [if_pos rfl] at hv
        simp only [Option.some.injEq] at hv
        subst hv
        cases ho : ((get m g).getD { uses := 0, first := none }).first with
        | some q =>
          have hq := (hfirst q).mp ho
          simp only [Option.some.injEq]
          constructor
          · rintro rfl
            exact .inl hq
          · rintro (h1 | ⟨h1, -⟩)
            · have := (hfirst p).mpr h1
              rw [ho] at this
              simpa using this
            · exact absurd hq (h1 q)
        | none =>
          have hn : ∀ q, ¬ First w ts g q := fun q hq => by
            have := (hfirst q).mpr hq
            rw [ho] at this
            simp at this
          cases gs with
          | nil =>
            simp only [reduceCtorEq, false_iff]
            rintro (h1 | ⟨-, -, x, r, h2, -⟩)
            · exact hn p h1
            · simp at h2
          | cons x r =>
            simp only [place_iff w hw]
            constructor
            · intro h1
              exact .inr ⟨hn, trivial, x, r, rfl, h1⟩
            · rintro (h1 | ⟨-, -, x', r', h2, h3⟩)
              · exact absurd h1 (hn p)
              · simp only [List.cons.injEq] at h2
                rw [h2.1]
                exact h3
      · rw [if_neg hgf] at hv
        rw [ht.first g v hv p]
        constructor
        · exact .inl
        · rintro (h1 | ⟨-, h1, -⟩)
          · exact h1
          · exact absurd h1.symm hgf
  · simp at h

theorem told_texts (w : World F S I P R) (hw : Proper w) (more : List (F × List (Mark S)))
    (hg : ∀ t ∈ more, t.2.length < 2 ^ 32) : ∀ (ts : List (F × List (Mark S))) (m m' : List (F × Value P)), Told w ts m →
    workTexts w m more = some m' → Told w (ts ++ more) m' := by
  induction more with
  | nil =>
    intro ts m m' ht h
    simp only [workTexts, Option.some.injEq] at h
    rw [List.append_nil, ← h]
    exact ht
  | cons t more ih =>
    intro ts m m' ht h
    rw [workTexts] at h
    cases hs : workText w m t.1 t.2 with
    | none => simp [hs] at h
    | some m1 =>
      simp only [hs] at h
      have := ih (fun x hx => hg x (List.mem_cons_of_mem _ hx)) _ _ _
        (told_step w hw (hg t List.mem_cons_self) ht hs) h
      rw [List.append_assoc] at this
      exact this

theorem old_uses (w : World F S I P R) {ts : List (F × List (Mark S))} {m : List (F × Value P)} (ht : Told w ts m) (f : F) :
    ((get m f).getD { uses := 0, first := none }).uses = glyphs ts f := by
  cases hv : get m f with
  | none =>
    have hno : ∀ gs, (f, gs) ∉ ts := fun gs hm => by
      obtain ⟨v, hv'⟩ := (ht.there f).mpr ⟨gs, hm⟩
      rw [hv] at hv'
      simp at hv'
    have : ts.filter (fun t => t.1 = f) = [] := by
      rw [List.filter_eq_nil_iff]
      rintro ⟨a, b⟩ hm he
      simp only [decide_eq_true_eq] at he
      exact hno b (he ▸ hm)
    simp [glyphs, this]
  | some v => exact ht.uses f v hv

theorem none_texts (w : World F S I P R) (hw : Proper w) (more : List (F × List (Mark S)))
    (hg : ∀ t ∈ more, t.2.length < 2 ^ 32) : ∀ (ts : List (F × List (Mark S))) (m : List (F × Value P)), Told w ts m →
    (∀ f, glyphs ts f < 2 ^ 32) → (workTexts w m more = none ↔ ∃ f, 2 ^ 32 ≤ glyphs (ts ++ more) f) := by
  induction more with
  | nil =>
    intro ts m ht hs
    simp only [workTexts, reduceCtorEq, List.append_nil, false_iff, not_exists, Nat.not_le]
    exact hs
  | cons t more ih =>
    intro ts m ht hs
    obtain ⟨f, gs⟩ := t
    rw [workTexts]
    have hlen : gs.length < 2 ^ 32 := hg (f, gs) List.mem_cons_self
    cases hstep : workText w m f gs with
    | none =>
      simp only [true_iff]
      refine ⟨f, ?_⟩
      unfold workText at hstep
      simp only [Nat.mod_eq_of_lt hlen, old_uses w ht f] at hstep
      split at hstep
      · simp at hstep
      · rename_i hn
        rw [show ts ++ (f, gs) :: more = ts ++ ([(f, gs)] ++ more) from rfl, glyphs_append, glyphs_append, glyphs_one, if_pos rfl]
        omega
    | some m1 =>
      simp only
      have h1 := told_step w hw hlen ht hstep
      have h2 : ∀ g, glyphs (ts ++ [(f, gs)]) g < 2 ^ 32 := by
        intro g
        rw [glyphs_append, glyphs_one]
        unfold workText at hstep
        simp only [Nat.mod_eq_of_lt hlen, old_uses w ht f] at hstep
        split at hstep
        · rename_i hlt
          by_cases hgf : f = g
          · subst hgf
            rw [if_pos rfl]
            exact hlt
          · rw [if_neg hgf]
            exact hs g
        · simp at hstep
      have := ih (fun x hx => hg x (List.mem_cons_of_mem _ hx)) _ _ h1 h2
      rw [List.append_assoc] at this
      exact this

theorem told_nil (w : World F S I P R) : Told w ([] : List (F × List (Mark S))) [] :=
  ⟨List.nodup_nil, fun f => by simp [get], fun f v h => by simp [get] at h, fun f v h => by simp [get] at h⟩

/-! ## The answer -/

theorem number_spec (sources : List R) (r : R) (hn : sources.Nodup) :
    (number sources r).2[(number sources r).1]? = some r ∧ (∃ more, (number sources r).2 = sources ++ more ∧ ∀ x ∈ more, x = r) ∧
    (number sources r).2.Nodup := by
  unfold number
  split
  · rename_i hm
    refine ⟨?_, ⟨[], by simp, by simp⟩, hn⟩
    simp only
    rw [List.getElem?_eq_getElem (List.idxOf_lt_length_of_mem hm), List.getElem_idxOf]
  · rename_i hm
    refine ⟨by simp, ⟨[r], rfl, by simp⟩, ?_⟩
    simp only
    rw [List.nodup_append]
    refine ⟨hn, by simp, ?_⟩
    intro a ha b hb
    rw [List.mem_singleton.mp hb]
    rintro rfl
    exact hm ha

theorem compute_spec (w : World F S I P R) (m : List (F × Value P)) : ∀ (sources : List R), sources.Nodup →
    ((compute w m sources).1.map (fun i => (i.font, (⟨i.uses, i.first⟩ : Value P))) = m) ∧
    (∃ more, (compute w m sources).2 = sources ++ more ∧ ∀ r ∈ more, ∃ e ∈ m, w.origin e.1 = some r) ∧
    (compute w m sources).2.Nodup ∧
    (∀ i ∈ (compute w m sources).1, (i.source = none ∧ w.origin i.font = none) ∨
      ∃ n r, i.source = some n ∧ w.origin i.font = some r ∧ (compute w m sources).2[n]? = some r) := by
  induction m with
  | nil =>
    intro sources hn
    exact ⟨rfl, ⟨[], by simp [compute], by simp⟩, hn, by simp [compute]⟩
  | cons e m ih =>
    intro sources hn
    obtain ⟨f, v⟩ := e
    rw [compute]
    cases ho : w.origin f with
    | none =>
      simp only
      obtain ⟨h1, ⟨more, h2, h3⟩, h4, h5⟩ := ih sources hn
      refine ⟨by rw [List.map_cons, h1], ⟨more, h2, ?_⟩, h4, ?_⟩
      · intro r hr
        obtain ⟨e, he, h6⟩ := h3 r hr
        exact ⟨e, List.mem_cons_of_mem _ he, h6⟩
      · intro i hi
        rcases List.mem_cons.mp hi with rfl | hi
        · exact .inl ⟨rfl, ho⟩
        · exact h5 i hi
    | some r =>
      simp only
      obtain ⟨n1, ⟨m1, n2, n3⟩, n4⟩ := number_spec sources r hn
      obtain ⟨h1, ⟨more, h2, h3⟩, h4, h5⟩ := ih (number sources r).2 n4
      refine ⟨by rw [List.map_cons, h1], ⟨m1 ++ more, by rw [h2, n2, List.append_assoc], ?_⟩, h4, ?_⟩
      · intro x hx
        rcases List.mem_append.mp hx with hx | hx
        · rw [n3 x hx]
          exact ⟨(f, v), List.mem_cons_self, ho⟩
        · obtain ⟨e, he, h6⟩ := h3 x hx
          exact ⟨e, List.mem_cons_of_mem _ he, h6⟩
      · intro i hi
        rcases List.mem_cons.mp hi with rfl | hi
        · refine .inr ⟨_, r, rfl, ho, ?_⟩
          rw [h2]
          exact (List.getElem?_append_left (List.getElem?_eq_some_iff.mp n1).1).trans n1
        · exact h5 i hi

theorem mem_get (m : List (F × Value P)) (hn : (m.map (·.1)).Nodup) {f : F} {v : Value P} (h : (f, v) ∈ m) : get m f = some v := by
  induction m with
  | nil => simp at h
  | cons e m ih =>
    rw [List.map_cons, List.nodup_cons] at hn
    unfold get
    rw [List.lookup_cons]
    rcases List.mem_cons.mp h with rfl | h
    · simp
    · have : (f == e.1) = false := beq_false_of_ne fun he => hn.1 (he ▸ List.mem_map_of_mem (f := (·.1)) h)
      rw [this]
      exact ih hn.2 h

theorem get_mem (m : List (F × Value P)) {f : F} {v : Value P} (h : get m f = some v) : (f, v) ∈ m := by
  induction m with
  | nil => simp [get] at h
  | cons e m ih =>
    unfold get at h
    rw [List.lookup_cons] at h
    cases he : f == e.1 with
    | true =>
      rw [he] at h
      simp only [Option.some.injEq] at h
      rw [← h, eq_of_beq he]
      exact List.mem_cons_self
    | false =>
      rw [he] at h
      exact List.mem_cons_of_mem _ (ih h)

/-- C127: the answer for a document with pages has one entry for every font that some text of it is set in, and no
other. It says how many glyphs are set in the font, and the place of the first text in it, in the order of the document,
whose first glyph comes from a file. Its source is a number of the list of sources, where the source of the font stands;
the list has no source twice and none that no font has. -/
theorem fonts_of_document (w : World F S I P R) (hw : Proper w) (pages : List (List (Item F S)))
    (hg : ∀ t ∈ texts pages, t.2.length < 2 ^ 32) (infos : List (Info F P)) (sources : List R)
    (h : request w (some (.paged pages)) = some (infos, sources)) :
    (infos.map (·.font)).Nodup ∧
    (∀ f, (∃ i ∈ infos, i.font = f) ↔ ∃ gs, (f, gs) ∈ texts pages) ∧
    (∀ i ∈ infos, i.uses = glyphs (texts pages) i.font ∧ (∀ p, i.first = some p ↔ First w (texts pages) i.font p) ∧
      ((i.source = none ∧ w.origin i.font = none) ∨ ∃ n r, i.source = some n ∧ w.origin i.font = some r ∧ sources[n]? = some r)) ∧
    sources.Nodup ∧ (∀ r ∈ sources, ∃ i ∈ infos, w.origin i.font = some r) := by
  simp only [request, work] at h
  rw [workPages_texts] at h
  cases hm : workTexts w [] (texts pages) with
  | none => simp [hm] at h
  | some m =>
    simp only [hm, Option.some.injEq] at h
    have ht := told_texts w hw (texts pages) hg [] [] m (told_nil w) hm
    rw [List.nil_append] at ht
    obtain ⟨h1, ⟨more, h2, h3⟩, h4, h5⟩ := compute_spec w m [] List.nodup_nil
    rw [h] at h1 h2 h4 h5
    simp only [List.nil_append] at h2
    have hmem : ∀ f v, (f, v) ∈ m ↔ ∃ i ∈ infos, i.font = f ∧ (⟨i.uses, i.first⟩ : Value P) = v := by
      intro f v
      rw [← h1, List.mem_map]
      simp only [Prod.mk.injEq]
    have hget : ∀ i ∈ infos, get m i.font = some ⟨i.uses, i.first⟩ := fun i hi =>
      mem_get m ht.one ((hmem _ _).mpr ⟨i, hi, rfl, rfl⟩)
    refine ⟨?_, ?_, ?_, h4, ?_⟩
    · have : infos.map (·.font) = m.map (·.1) := by
        rw [← h1, List.map_map]
        rfl
      rw [this]
      exact ht.one
    · intro f
      rw [← ht.there f]
      constructor
      · rintro ⟨i, hi, rfl⟩
        exact ⟨_, hget i hi⟩
      · rintro ⟨v, hv⟩
        obtain ⟨i, hi, hf, -⟩ := (hmem f v).mp (get_mem m hv)
        exact ⟨i, hi, hf⟩
    · intro i hi
      exact ⟨ht.uses _ _ (hget i hi), ht.first _ _ (hget i hi), h5 i hi⟩
    · intro r hr
      rw [h2] at hr
      obtain ⟨⟨f, v⟩, he, ho⟩ := h3 r hr
      obtain ⟨i, hi, hf, -⟩ := (hmem f v).mp he
      exact ⟨i, hi, by rw [hf]; exact ho⟩

/-- C127: there is an answer exactly when a document has compiled, it has pages, and no font has more glyphs than the
answer can count. -/
theorem answered_iff (w : World F S I P R) (hw : Proper w) (doc : Option (Document F S))
    (hg : ∀ pages, doc = some (.paged pages) → ∀ t ∈ texts pages, t.2.length < 2 ^ 32) :
    (∃ a, request w doc = some a) ↔ ∃ pages, doc = some (.paged pages) ∧ ∀ f, glyphs (texts pages) f < 2 ^ 32 := by
  cases doc with
  | none => simp [request]
  | some d =>
    cases d with
    | html => simp [request, work]
    | paged pages =>
      simp only [request, work, Option.some.injEq, Document.paged.injEq, exists_eq_left']
      rw [workPages_texts]
      have := none_texts w hw (texts pages) (hg pages rfl) [] [] (told_nil w) (fun f => by simp [glyphs])
      rw [List.nil_append] at this
      cases hm : workTexts w [] (texts pages) with
      | none =>
        simp only [reduceCtorEq, exists_false, false_iff]
        obtain ⟨f, hf⟩ := this.mp hm
        exact fun h => absurd (h f) (by omega)
      | some m =>
        simp only [Option.some.injEq, exists_eq', true_iff]
        intro f
        rcases Nat.lt_or_ge (glyphs (texts pages) f) (2 ^ 32) with h | h
        · exact h
        · have := this.mpr ⟨f, h⟩
          rw [hm] at this
          simp at this

/-! ## A case -/

/-- One file of ten bytes; span 0 has no file, span 1 is the bytes 3 to 5, span 2 the bytes 6 to 9; two fonts share a
source. -/
def sampleWorld : World Nat Nat Nat Nat Nat where
  range s := if s = 1 then some (0, 3, 5) else if s = 2 then some (0, 6, 9) else none
  lineColumn _ b := some (0, b)
  pathOf _ := some 7
  origin f := if f = 9 then none else some 40

/-- A text without a place, one in a group, another font. -/
def samplePages : List (List (Item Nat Nat)) :=
  [[.text 1 [⟨0, 0⟩], .group [.other, .text 1 [⟨1, 9⟩, ⟨1, 0⟩]]], [.text 2 [], .text 1 [⟨2, 1⟩], .text 9 [⟨2, 1⟩]]]

example : request sampleWorld (some (.paged samplePages)) =
    some ([⟨9, 1, some ⟨7, 1, 8⟩, none⟩, ⟨1, 4, some ⟨7, 1, 5⟩, some 0⟩, ⟨2, 0, none, some 0⟩], [40]) := by decide

example : Proper sampleWorld := by
  intro s id lo hi h
  simp only [sampleWorld] at h
  split at h
  · simp only [Option.some.injEq, Prod.mk.injEq] at h
    omega
  · split at h
    · simp only [Option.some.injEq, Prod.mk.injEq] at h
      omega
    · simp at h

end Tinymist.Metrics
