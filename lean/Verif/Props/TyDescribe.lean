import Verif.Spec.TyDescribe

/-!
# Types in words (C120)
-/

namespace Tinymist.Types

open Spec

/-! ## What is collected -/

theorem word_nonempty {w : Words} {t : Ty} {x : Text} (h : Word w t x) : x ≠ [] := by
  induction h with
  | leaf l h => exact h
  | withArgs _ _ _ _ _ _ ih => exact ih
  | _ => decide

/-- What `collect` should give. -/
structure Collected (w : Words) (t : Ty) (r : Text × List Text × List Ty) : Prop where
  word : ∀ x, Word w t x ↔ r.1 = x ∧ x ≠ []
  one : ∀ x, OneIs w t x ↔ x ∈ r.2.1 ∨ r.1 = x ∧ x ≠ []
  funcs : functions t = r.2.2

theorem collected_word {w : Words} {t : Ty} {x : Text} (h : Word w t x) (hu : ∀ y, Word w t y → y = x)
    (ho : ∀ y, OneIs w t y → Word w t y) (hf : functions t = []) : Collected w t (x, [], []) := by
  have hx := word_nonempty h
  refine ⟨fun y => ⟨fun hy => ?_, fun hy => ?_⟩, fun y => ⟨fun hy => ?_, fun hy => ?_⟩, hf⟩
  · have := hu y hy; subst this; exact ⟨rfl, hx⟩
  · rw [← hy.1]; exact h
  · have := hu y (ho y hy); subst this; exact .inr ⟨rfl, hx⟩
  · rcases hy with hy | hy
    · cases hy
    · rw [← hy.1]; exact .word t x h

theorem collected_nothing {w : Words} {t : Ty} {fs : List Ty} (h : ∀ y, ¬ OneIs w t y) (hf : functions t = fs) : Collected w t ([], [], fs) := by
  refine ⟨fun x => ⟨fun hx => absurd (.word t x hx) (h x), fun hx => absurd hx.1.symm hx.2⟩,
    fun x => ⟨fun hx => absurd hx (h x), fun hx => ?_⟩, hf⟩
  rcases hx with hx | hx
  · cases hx
  · exact absurd hx.1.symm hx.2

theorem word_own (w : Words) (h : Head) (ts : List Ty) (hn : ownWord h ≠ []) : Word w (.node h ts) (ownWord h) := by
  cases h with
  | dict n => exact .dict n ts
  | tuple => exact .tuple ts
  | array => exact .array ts
  | sig k s b => cases k with
    | func => exact absurd rfl hn
    | args => exact .args s b ts
    | pattern => exact .pattern s b ts
  | param n => exact .param n ts
  | select n => exact .select n ts
  | unary n => exact .unary n ts
  | binary n => exact .binary n ts
  | cond => exact .cond ts
  | union => exact absurd rfl hn
  | bounds => exact absurd rfl hn
  | withArgs => exact absurd rfl hn

theorem collected_own (w : Words) (h : Head) (ts : List Ty) (hn : ownWord h ≠ []) : Collected w (.node h ts) (ownWord h, [], []) := by
  have hw := word_own w h ts hn
  refine collected_word hw (fun y hy => ?_) (fun y hy => ?_) ?_
  · cases hy with
    | withArgs => exact absurd rfl hn
    | _ => rfl
  · cases hy with
    | word _ _ h => exact h
    | union => exact absurd rfl hn
    | bounds => exact absurd rfl hn
    | withArgs => exact absurd rfl hn
  · rw [functions.eq_def]
    cases h with
    | sig k s b => cases k with
      | func => exact absurd rfl hn
      | _ => rfl
    | union => exact absurd rfl hn
    | bounds => exact absurd rfl hn
    | withArgs => exact absurd rfl hn
    | _ => rfl

theorem collect_own (w : Words) (h : Head) (ts : List Ty) (hn : ownWord h ≠ []) : collect w (.node h ts) = (ownWord h, [], []) := by
  rw [collect.eq_def]
  cases h with
  | sig k s b => cases k with
    | func => exact absurd rfl hn
    | _ => rfl
  | union => exact absurd rfl hn
  | bounds => exact absurd rfl hn
  | withArgs => exact absurd rfl hn
  | _ => rfl

mutual
theorem collect_ok (w : Words) : ∀ t : Ty, Collected w t (collect w t)
  | .leaf l => by
    rw [collect]
    by_cases hl : w.leaf l = []
    · rw [hl]
      refine collected_nothing (fun y h => ?_) (by rw [functions])
      cases h with | word _ _ h => cases h with | leaf _ h => exact h hl
    · exact collected_word (.leaf l hl) (fun y h => by cases h; rfl) (fun y h => by cases h; assumption) (by rw [functions])
  | .var d => by
    rw [collect]
    exact collected_nothing (fun y h => by cases h with | word _ _ h => cases h) (by rw [functions])
  | .node h ts => by
    by_cases hn : ownWord h = []
    · cases h with
      | union =>
        obtain ⟨h1, h2⟩ := collectIter_ok w ts
        rw [collect]
        refine ⟨fun x => ⟨fun h => ?_, fun h => ?_⟩, fun x => ⟨fun h => ?_, fun h => ?_⟩, by rw [functions]; exact h2⟩
        · cases h
        · exact absurd h.1.symm h.2
        · cases h with
          | word _ _ h => cases h
          | union _ t _ m h => exact .inl ((h1 x).mp ⟨t, m, h⟩)
        · rcases h with h | h
          · obtain ⟨t, m, h⟩ := (h1 x).mpr h
            exact .union ts t x m h
          · exact absurd h.1.symm h.2
      | bounds n =>
        obtain ⟨h1, h2⟩ := collectIter_ok w ts
        rw [collect]
        refine ⟨fun x => ⟨fun h => ?_, fun h => ?_⟩, fun x => ⟨fun h => ?_, fun h => ?_⟩, by rw [functions]; exact h2⟩
        · cases h
        · exact absurd h.1.symm h.2
        · cases h with
          | word _ _ h => cases h
          | bounds _ _ t _ m h => exact .inl ((h1 x).mp ⟨t, m, h⟩)
        · rcases h with h | h
          · obtain ⟨t, m, h⟩ := (h1 x).mpr h
            exact .bounds n ts t x m h
          · exact absurd h.1.symm h.2
      | sig k s b => cases k with
        | func =>
          rw [collect]
          exact collected_nothing (fun y h => by cases h with | word _ _ h => cases h) (by rw [functions])
        | args => cases hn
        | pattern => cases hn
      | withArgs s b =>
        rw [collect]
        match ts with
        | [] =>
          rw [collectFirst]
          exact collected_nothing (fun y h => by cases h with | word _ _ h => cases h) (by rw [functions, functionsFirst])
        | t :: ts =>
          obtain ⟨h1, h2, h3⟩ := collect_ok w t
          rw [collectFirst]
          refine ⟨fun x => ⟨fun h => ?_, fun h => ?_⟩, fun x => ⟨fun h => ?_, fun h => ?_⟩, by rw [functions, functionsFirst]; exact h3⟩
          · cases h with | withArgs _ _ _ _ _ h => exact (h1 x).mp h
          · exact .withArgs s b t ts x ((h1 x).mpr h)
          · cases h with
            | word _ _ h => cases h with | withArgs _ _ _ _ _ h => exact .inr ((h1 x).mp h)
            | withArgs _ _ _ _ _ h => exact (h2 x).mp h
          · exact .withArgs s b t ts x ((h2 x).mpr h)
      | dict | tuple | array | param | select | unary | binary | cond => cases hn
    · rw [collect_own w h ts hn]
      exact collected_own w h ts hn

theorem collectIter_ok (w : Words) : ∀ ts : List Ty, (∀ x, (∃ t, t ∈ ts ∧ OneIs w t x) ↔ x ∈ (collectIter w ts).1) ∧
    functionsAll ts = (collectIter w ts).2
  | [] => by
    rw [collectIter]
    exact ⟨fun x => ⟨fun ⟨t, m, _⟩ => (by cases m), fun m => (by cases m)⟩, rfl⟩
  | t :: ts => by
    obtain ⟨_, h2, h3⟩ := collect_ok w t
    obtain ⟨i1, i2⟩ := collectIter_ok w ts
    rw [collectIter, functionsAll]
    refine ⟨fun x => ?_, by rw [h3, i2]⟩
    show _ ↔ x ∈ (collect w t).2.1 ++ (if (collect w t).1 = [] then [] else [(collect w t).1]) ++ (collectIter w ts).1
    rw [List.mem_append, List.mem_append, ← i1 x]
    have he : OneIs w t x ↔ x ∈ (collect w t).2.1 ∨ x ∈ (if (collect w t).1 = [] then [] else [(collect w t).1]) := by
      rw [h2 x]
      by_cases hn : (collect w t).1 = []
      · rw [if_pos hn, hn]
        simp
      · rw [if_neg hn, List.mem_singleton]
        constructor
        · rintro (h | h)
          · exact .inl h
          · exact .inr h.1.symm
        · rintro (h | h)
          · exact .inl h
          · exact .inr ⟨h.symm, h ▸ hn⟩
    rw [← he]
    simp
end

/-! ## Lists of texts -/

theorem mem_dedup (l : List Text) (x : Text) : x ∈ dedup l ↔ x ∈ l := by
  induction l with
  | nil => rfl
  | cons a l ih =>
    rw [dedup, List.mem_cons, ← ih]
    cases dedup l with
    | nil => simp
    | cons b r =>
      simp only
      split
      · rename_i h; subst h; simp
      · simp

theorem dedup_sorted (l : List Text) (h : l.Pairwise (· ≤ ·)) : (dedup l).Pairwise (· < ·) := by
  induction l with
  | nil => exact .nil
  | cons a l ih =>
    rw [List.pairwise_cons] at h
    have ih := ih h.2
    have hm := mem_dedup l
    rw [dedup]
    revert ih hm
    cases dedup l with
    | nil => exact fun _ _ => List.pairwise_singleton _ _
    | cons b r =>
      intro ih hm
      simp only
      split
      · exact ih
      · rename_i hne
        refine List.pairwise_cons.mpr ⟨fun x hx => ?_, ih⟩
        have hab : a < b := List.not_le.mp fun hba => hne (List.le_antisymm (h.1 b ((hm b).mp List.mem_cons_self)) hba)
        rcases List.mem_cons.mp hx with rfl | hx
        · exact hab
        · exact List.lt_trans hab ((List.pairwise_cons.mp ih).1 x hx)

theorem listed_join : ∀ l : List Text, l ≠ [] → l.Pairwise (· < ·) → Listed l (joinBars l)
  | [], h, _ => absurd rfl h
  | [a], _, _ => .one a
  | a :: b :: l, _, h => by
    rw [joinBars]
    exact .cons a b l _ ((List.pairwise_cons.mp h).1 b List.mem_cons_self) (listed_join (b :: l) (by simp) (List.pairwise_cons.mp h).2)

/-- The list that is written. -/
def written (l : List Text) : List Text := dedup (l.mergeSort fun a b => decide (a ≤ b))

theorem written_mem (l : List Text) (x : Text) : x ∈ written l ↔ x ∈ l := by
  unfold written
  rw [mem_dedup, List.mem_mergeSort]

theorem written_listed (l : List Text) (h : l ≠ []) : Listed (written l) (joinBars (written l)) := by
  refine listed_join _ ?_ (dedup_sorted _ ?_)
  · intro e
    obtain ⟨a, ha⟩ := List.exists_mem_of_ne_nil l h
    have := (written_mem l a).mpr ha
    rw [e] at this; cases this
  · have := List.pairwise_mergeSort (le := fun a b : Text => decide (a ≤ b))
      (fun a b c h1 h2 => decide_eq_true (List.le_trans (of_decide_eq_true h1) (of_decide_eq_true h2)))
      (fun a b => by simpa using List.le_total a b) l
    exact this.imp fun h => of_decide_eq_true h

/-! ## Sizes -/

theorem size_child {h : Head} {ts : List Ty} {t : Ty} (m : t ∈ ts) : sizeOf t < sizeOf (Ty.node h ts) := by
  rw [Ty.node.sizeOf_spec]
  have := List.sizeOf_lt_of_mem m
  omega

theorem made_child {h : Head} {ts : List Ty} (hm : Made (.node h ts)) {t : Ty} (m : t ∈ ts) : Made t := by
  cases hm with | node _ _ h1 _ => exact h1 t m

mutual
theorem functions_part : ∀ t : Ty, Made t → ∀ f, f ∈ functions t → sizeOf f ≤ sizeOf t ∧ Made f ∧ ∃ s b ts, f = .node (.sig .func s b) ts
  | .leaf l, _, f, h => by rw [functions] at h; cases h
  | .var d, _, f, h => by rw [functions] at h; cases h
  | .node g ts, hm, f, h => by
    rw [functions.eq_def] at h
    cases g with
    | sig k s b => cases k with
      | func => rw [List.mem_singleton.mp h]; exact ⟨Nat.le_refl _, hm, s, b, ts, rfl⟩
      | args => cases h
      | pattern => cases h
    | union =>
      obtain ⟨t, m, h1, h2⟩ := functionsAll_part ts (fun t m => made_child hm m) f h
      have := size_child (h := .union) m
      exact ⟨by omega, h2⟩
    | bounds n =>
      obtain ⟨t, m, h1, h2⟩ := functionsAll_part ts (fun t m => made_child hm m) f h
      have := size_child (h := .bounds n) m
      exact ⟨by omega, h2⟩
    | withArgs s b =>
      match ts, hm, h with
      | [], _, h => simp only [functionsFirst] at h; cases h
      | t :: ts, hm, h =>
        simp only [functionsFirst] at h
        obtain ⟨h1, h2⟩ := functions_part t (made_child hm List.mem_cons_self) f h
        have := size_child (h := .withArgs s b) (ts := t :: ts) List.mem_cons_self
        exact ⟨by omega, h2⟩
    | dict | tuple | array | param | select | unary | binary | cond => cases h
theorem functionsAll_part : ∀ ts : List Ty, (∀ t, t ∈ ts → Made t) → ∀ f, f ∈ functionsAll ts →
    ∃ t, t ∈ ts ∧ sizeOf f ≤ sizeOf t ∧ Made f ∧ ∃ s b us, f = .node (.sig .func s b) us
  | [], _, f, h => by rw [functionsAll] at h; cases h
  | t :: ts, hm, f, h => by
    rw [functionsAll] at h
    rcases List.mem_append.mp h with h | h
    · exact ⟨t, List.mem_cons_self, functions_part t (hm t List.mem_cons_self) f h⟩
    · obtain ⟨u, m, r⟩ := functionsAll_part ts (fun u m => hm u (List.mem_cons_of_mem _ m)) f h
      exact ⟨u, List.mem_cons_of_mem _ m, r⟩
end

/-- The parameters that are described. -/
def items (w : Words) (s : Shape) (inputs : List Ty) : List (Text × Ty) :=
  (inputs.take s.start).map (([], ·)) ++ (s.names.zip (inputs.drop s.start)).map (fun p => (w.name p.1 ++ [':', ' '], p.2)) ++
    (if s.right then inputs.getLast?.toList.map ((['.', '.', ':', ' '], ·)) else [])

theorem items_mem {w : Words} {s : Shape} {inputs : List Ty} {p : Text × Ty} (h : p ∈ items w s inputs) : p.2 ∈ inputs := by
  unfold items at h
  rcases List.mem_append.mp h with h | h
  · rcases List.mem_append.mp h with h | h
    · obtain ⟨t, m, rfl⟩ := List.mem_map.mp h
      exact List.mem_of_mem_take m
    · obtain ⟨q, m, rfl⟩ := List.mem_map.mp h
      exact List.mem_of_mem_drop (List.of_mem_zip m).2
  · split at h
    · obtain ⟨t, m, rfl⟩ := List.mem_map.mp h
      rw [Option.mem_toList] at m
      exact List.mem_of_getLast? m
    · cases h

/-! ## Descriptions -/

/-- What is remembered is right for types smaller than `k`. -/
def Right (w : Words) (k : Nat) (c : Described) : Prop :=
  ∀ u s, sizeOf u < k → c.lookup u = some s → ∃ o, Describes w u o ∧ o.getD anyText = s

theorem lookup_other {t u : Ty} (x : Text) (c : Described) (h : u ≠ t) : List.lookup u ((t, x) :: c) = c.lookup u := by
  have : (u == t) = false := by simpa using h
  rw [List.lookup_cons, this]

theorem lookup_same (t : Ty) (x : Text) (c : Described) : List.lookup t ((t, x) :: c) = some x := by
  have : (t == t) = true := by simp
  rw [List.lookup_cons, this]

theorem describe_ok (w : Words) : ∀ fuel : Nat,
    (∀ t c o c' k, Made t → sizeOf t < k → Right w k c → describeRoot w fuel t c = some (o, c') →
      (∃ o', Describes w t o' ∧ o'.getD anyText = o.getD anyText) ∧ (c.lookup t = none → Describes w t o) ∧ Right w k c' ∧
        ∀ u, k ≤ sizeOf u → c'.lookup u = c.lookup u) ∧
    (∀ fs c r c' k, (∀ f, f ∈ fs → sizeOf f ≤ k ∧ Made f ∧ ∃ s b ts, f = .node (.sig .func s b) ts) → Right w k c →
      describeFuncs w fuel fs c = some (r, c') →
      (fs = [] ∧ r = [] ∨ ∃ f rest ft, fs = f :: rest ∧ r = [ft] ∧ DescribesFunction w f ft) ∧ Right w k c' ∧
        ∀ u, k ≤ sizeOf u → c'.lookup u = c.lookup u) ∧
    (∀ ps first c r c' k, (∀ p, p ∈ ps → sizeOf p.2 < k ∧ Made p.2) → Right w k c → describeParams w fuel ps first c = some (r, c') →
      DescribesParams w ps first r ∧ Right w k c' ∧ ∀ u, k ≤ sizeOf u → c'.lookup u = c.lookup u)
  | 0 => ⟨fun t c o c' k _ _ _ h => (by rw [describeRoot] at h; cases h), fun fs c r c' k _ _ h => (by rw [describeFuncs] at h; cases h),
      fun ps first c r c' k _ _ h => (by rw [describeParams] at h; cases h)⟩
  | fuel + 1 => by
    obtain ⟨ih1, ih2, ih3⟩ := describe_ok w fuel
    refine ⟨?_, ?_, ?_⟩
    · intro t c o c' k hm hk hc h
      obtain ⟨hw, ho, hf⟩ := collect_ok w t
      rw [describeRoot] at h
      cases hl : c.lookup t with
      | some s =>
        rw [hl] at h
        cases h
        obtain ⟨o', h1, h2⟩ := hc t s hk hl
        exact ⟨⟨o', h1, h2⟩, fun e => (by cases e), hc, fun _ _ => rfl⟩
      | none =>
        rw [hl] at h
        simp only at h
        by_cases hres : (collect w t).1 ≠ []
        · rw [if_pos hres] at h
          cases h
          have hd : Describes w t (some (collect w t).1) := .word t _ ((hw _).mpr ⟨rfl, hres⟩)
          exact ⟨⟨_, hd, rfl⟩, fun _ => hd, hc, fun _ _ => rfl⟩
        · rw [if_neg hres] at h
          have hres : (collect w t).1 = [] := Decidable.not_not.mp hres
          have hnw : ∀ x, ¬ Word w t x := fun x hx => ((hw x).mp hx).2 (((hw x).mp hx).1.symm.trans hres)
          have hone : ∀ x, x ∈ (collect w t).2.1 ↔ OneIs w t x := by
            intro x
            rw [ho x, hres]
            constructor
            · exact .inl
            · rintro (h | h)
              · exact h
              · exact absurd h.1.symm h.2
          cases hfs : describeFuncs w fuel (collect w t).2.2 ((t, selfText) :: c) with
          | none => rw [hfs] at h; cases h
          | some r =>
            obtain ⟨more, c1⟩ := r
            rw [hfs] at h
            simp only at h
            obtain ⟨g1, g2, g3⟩ := ih2 _ _ _ _ (sizeOf t) (fun f m => functions_part t hm f (hf ▸ m)) (by
              intro u s hu hs
              have hne : u ≠ t := by rintro rfl; omega
              rw [lookup_other _ _ hne] at hs
              exact hc u s (by omega) hs) hfs
            have key : ∀ x, (∃ o', Describes w t o' ∧ o'.getD anyText = x) → Right w k ((t, x) :: c1) ∧
                ∀ u, k ≤ sizeOf u → List.lookup u ((t, x) :: c1) = c.lookup u := by
              intro x hx
              constructor
              · intro u s hu hs
                by_cases hut : u = t
                · subst hut
                  rw [lookup_same] at hs
                  cases hs; exact hx
                · rw [lookup_other _ _ hut] at hs
                  by_cases hlt : sizeOf u < sizeOf t
                  · exact g2 u s hlt hs
                  · rw [g3 u (by omega), lookup_other _ _ hut] at hs
                    exact hc u s hu hs
              · intro u hu
                have hut : u ≠ t := by rintro rfl; omega
                rw [lookup_other _ _ hut, g3 u (by omega), lookup_other _ _ hut]
            by_cases hnil : (collect w t).2.1 ++ more = []
            · rw [if_pos hnil] at h
              cases h
              have hd : Describes w t none := by
                rw [List.append_eq_nil_iff] at hnil
                refine .none t (fun x hx => ?_) ?_
                · have := (hone x).mpr hx
                  rw [hnil.1] at this; cases this
                · rw [hf]
                  rcases g1 with ⟨h, _⟩ | ⟨f, rest, ft, _, h, _⟩
                  · exact h
                  · rw [hnil.2] at h; cases h
              obtain ⟨k1, k2⟩ := key anyText ⟨none, hd, rfl⟩
              exact ⟨⟨none, hd, rfl⟩, fun _ => hd, k1, k2⟩
            · rw [if_neg hnil] at h
              cases h
              have hlist := written_listed _ hnil
              have hd : Describes w t (some (joinBars (written ((collect w t).2.1 ++ more)))) := by
                rcases g1 with ⟨h, hmore⟩ | ⟨f, rest, ft, h, hmore, hft⟩
                · refine .plain t _ _ hnw (by rw [hf, h]) (fun x => ?_) hlist
                  rw [written_mem, hmore, List.append_nil, hone]
                · refine .withFunction t f rest ft _ _ (by rw [hf, h]) hft (fun x => ?_) hlist
                  rw [written_mem, hmore, List.mem_append, hone, List.mem_singleton]
              obtain ⟨k1, k2⟩ := key _ ⟨_, hd, rfl⟩
              exact ⟨⟨_, hd, rfl⟩, fun _ => hd, k1, k2⟩
    · intro fs c r c' k hfs hc h
      cases fs with
      | nil =>
        rw [describeFuncs] at h
        cases h
        exact ⟨.inl ⟨rfl, rfl⟩, hc, fun _ _ => rfl⟩
      | cons f rest =>
        obtain ⟨hsz, hmade, s, b, ts, rfl⟩ := hfs f List.mem_cons_self
        rw [describeFuncs] at h
        cases b with
        | false =>
          have hsig : signature w (.node (.sig .func s false) ts) = (items w s ts, none) := rfl
          rw [hsig] at h
          simp only at h
          cases hp : describeParams w fuel (items w s ts) true c with
          | none => rw [hp] at h; cases h
          | some pr =>
            obtain ⟨ps, c1⟩ := pr
            rw [hp] at h
            cases h
            obtain ⟨p1, p2, p3⟩ := ih3 _ _ _ _ _ k (fun p m => ⟨by have := size_child (h := .sig .func s false) (items_mem m); omega,
              made_child hmade (items_mem m)⟩) hc hp
            refine ⟨.inr ⟨_, rest, _, rfl, rfl, ?_⟩, p2, p3⟩
            have := DescribesFunction.noBody (w := w) .func s ts ps p1
            rw [List.append_assoc]
            rw [List.append_assoc] at this
            exact this
        | true =>
          have hne : ts ≠ [] := by cases hmade with | node _ _ _ h2 => exact h2 .func s rfl
          obtain ⟨inputs, body, rfl⟩ : ∃ inputs body, ts = inputs ++ [body] := by
            rcases List.eq_nil_or_concat ts with h | ⟨i, b, h⟩
            · exact absurd h hne
            · exact ⟨i, b, by rw [h]; simp⟩
          have hsig : signature w (.node (.sig .func s true) (inputs ++ [body])) = (items w s inputs, some body) := by
            simp [signature, items]
          rw [hsig] at h
          simp only at h
          cases hp : describeParams w fuel (items w s inputs) true c with
          | none => rw [hp] at h; cases h
          | some pr =>
            obtain ⟨ps, c1⟩ := pr
            rw [hp] at h
            simp only at h
            obtain ⟨p1, p2, p3⟩ := ih3 _ _ _ _ _ k (fun p m => by
              have hmem : p.2 ∈ inputs ++ [body] := List.mem_append_left _ (items_mem m)
              have := size_child (h := .sig .func s true) hmem
              exact ⟨by omega, made_child hmade hmem⟩) hc hp
            cases hb : describeRoot w fuel body c1 with
            | none => rw [hb] at h; cases h
            | some br =>
              obtain ⟨o, c2⟩ := br
              rw [hb] at h
              cases h
              have hmem : body ∈ inputs ++ [body] := by simp
              have hlt := size_child (h := .sig .func s true) hmem
              obtain ⟨⟨o', b1, b2⟩, _, b3, b4⟩ := ih1 _ _ _ _ k (made_child hmade hmem) (by omega) p2 hb
              refine ⟨.inr ⟨_, rest, _, rfl, rfl, ?_⟩, b3, fun u hu => (b4 u hu).trans (p3 u hu)⟩
              have := DescribesFunction.body (w := w) .func s inputs body o' ps p1 b1
              rw [← b2]
              exact this
    · intro ps first c r c' k hps hc h
      cases ps with
      | nil =>
        rw [describeParams] at h
        cases h
        exact ⟨.nil first, hc, fun _ _ => rfl⟩
      | cons p ps =>
        obtain ⟨pre, t⟩ := p
        rw [describeParams] at h
        cases ht : describeRoot w fuel t c with
        | none => rw [ht] at h; cases h
        | some tr =>
          obtain ⟨o, c1⟩ := tr
          rw [ht] at h
          simp only at h
          cases hr : describeParams w fuel ps false c1 with
          | none => rw [hr] at h; cases h
          | some rr =>
            obtain ⟨rest, c2⟩ := rr
            rw [hr] at h
            cases h
            obtain ⟨hsz, hmade⟩ := hps (pre, t) List.mem_cons_self
            obtain ⟨⟨o', b1, b2⟩, _, b3, b4⟩ := ih1 _ _ _ _ k hmade hsz hc ht
            obtain ⟨r1, r2, r3⟩ := ih3 _ _ _ _ _ k (fun p m => hps p (List.mem_cons_of_mem _ m)) b3 hr
            refine ⟨?_, r2, fun u hu => (r3 u hu).trans (b4 u hu)⟩
            have := DescribesParams.cons (w := w) pre t o' ps first rest b1 r1
            rw [← b2]
            exact this

/-- C120: the text for a type has the words of its alternatives, each once, in order, and the first function among them; there is no text
if none of them says anything. What is remembered of types on the way makes no difference. -/
theorem describe_says_partial (w : Words) (fuel : Nat) (t : Ty) (hm : Made t) (o : Option Text) (h : describe w fuel t = some o) :
    Describes w t o := by
  unfold describe at h
  obtain ⟨⟨o', c⟩, h1, h2⟩ := Option.map_eq_some_iff.mp h
  cases h2
  exact ((describe_ok w fuel).1 t [] o' c (sizeOf t + 1) hm (by omega) (by intro u s _ h; cases h) h1).2.1 rfl

/-! ## It comes to an end -/

theorem describe_more (w : Words) : ∀ fuel : Nat,
    (∀ t c r, describeRoot w fuel t c = some r → describeRoot w (fuel + 1) t c = some r) ∧
    (∀ fs c r, describeFuncs w fuel fs c = some r → describeFuncs w (fuel + 1) fs c = some r) ∧
    (∀ ps first c r, describeParams w fuel ps first c = some r → describeParams w (fuel + 1) ps first c = some r)
  | 0 => ⟨fun t c r h => (by rw [describeRoot] at h; cases h), fun fs c r h => (by rw [describeFuncs] at h; cases h),
      fun ps first c r h => (by rw [describeParams] at h; cases h)⟩
  | fuel + 1 => by
    obtain ⟨ih1, ih2, ih3⟩ := describe_more w fuel
    refine ⟨fun t c r h => ?_, fun fs c r h => ?_, fun ps first c r h => ?_⟩
    · rw [describeRoot] at h ⊢
      cases hl : c.lookup t with
      | some s => rw [hl] at h; exact h
      | none =>
        rw [hl] at h
        simp only at h ⊢
        by_cases hres : (collect w t).1 ≠ []
        · rw [if_pos hres] at h ⊢; exact h
        · rw [if_neg hres] at h ⊢
          cases hfs : describeFuncs w fuel (collect w t).2.2 ((t, selfText) :: c) with
          | none => rw [hfs] at h; cases h
          | some x => rw [hfs] at h; rw [ih2 _ _ _ hfs]; exact h
    · cases fs with
      | nil => rw [describeFuncs] at h ⊢; exact h
      | cons f rest =>
        rw [describeFuncs] at h ⊢
        simp only at h ⊢
        cases hp : describeParams w fuel (signature w f).1 true c with
        | none => rw [hp] at h; cases h
        | some pr =>
          rw [hp] at h
          rw [ih3 _ _ _ _ hp]
          simp only at h ⊢
          cases hb : (signature w f).2 with
          | none => rw [hb] at h; exact h
          | some b =>
            rw [hb] at h
            simp only at h ⊢
            cases hr : describeRoot w fuel b pr.2 with
            | none => rw [hr] at h; cases h
            | some x => rw [hr] at h; rw [ih1 _ _ _ hr]; exact h
    · cases ps with
      | nil => rw [describeParams] at h ⊢; exact h
      | cons p ps =>
        obtain ⟨pre, t⟩ := p
        rw [describeParams] at h ⊢
        cases ht : describeRoot w fuel t c with
        | none => rw [ht] at h; cases h
        | some tr =>
          rw [ht] at h
          rw [ih1 _ _ _ ht]
          simp only at h ⊢
          cases hr : describeParams w fuel ps false tr.2 with
          | none => rw [hr] at h; cases h
          | some x => rw [hr] at h; rw [ih3 _ _ _ _ hr]; exact h

theorem describe_mono (w : Words) {a b : Nat} (hab : a ≤ b) :
    (∀ t c r, describeRoot w a t c = some r → describeRoot w b t c = some r) ∧
    (∀ ps first c r, describeParams w a ps first c = some r → describeParams w b ps first c = some r) := by
  induction hab with
  | refl => exact ⟨fun _ _ _ h => h, fun _ _ _ _ h => h⟩
  | step _ ih => exact ⟨fun t c r h => (describe_more w _).1 t c r (ih.1 t c r h), fun ps f c r h => (describe_more w _).2.2 ps f c r (ih.2 ps f c r h)⟩

theorem params_end (w : Words) : ∀ (ps : List (Text × Ty)) (first : Bool) (c : Described),
    (∀ p, p ∈ ps → ∀ c, ∃ fuel r, describeRoot w fuel p.2 c = some r) → ∃ fuel r, describeParams w fuel ps first c = some r
  | [], first, c, _ => ⟨1, _, by rw [describeParams]⟩
  | (pre, t) :: ps, first, c, h => by
    obtain ⟨f1, r1, h1⟩ := h (pre, t) List.mem_cons_self c
    obtain ⟨f2, r2, h2⟩ := params_end w ps false r1.2 (fun p m => h p (List.mem_cons_of_mem _ m))
    have hne : describeParams w (max f1 f2 + 1) ((pre, t) :: ps) first c ≠ none := by
      rw [describeParams, (describe_mono w (Nat.le_max_left f1 f2)).1 _ _ _ h1]
      simp only
      rw [(describe_mono w (Nat.le_max_right f1 f2)).2 _ _ _ _ h2]
      simp
    obtain ⟨x, hx⟩ := Option.ne_none_iff_exists'.mp hne
    exact ⟨_, x, hx⟩

theorem root_ends (w : Words) : ∀ (n : Nat) (t : Ty), sizeOf t ≤ n → Made t → ∀ c, ∃ fuel r, describeRoot w fuel t c = some r := by
  intro n
  induction n using Nat.strongRecOn with
  | ind n ih =>
    intro t hn hm c
    cases hl : c.lookup t with
    | some s => exact ⟨1, (some s, c), by rw [describeRoot, hl]⟩
    | none =>
      obtain ⟨_, _, hf⟩ := collect_ok w t
      have hfuncs : ∃ fuel r, describeFuncs w fuel (collect w t).2.2 ((t, selfText) :: c) = some r := by
        cases hc : (collect w t).2.2 with
        | nil => exact ⟨1, _, by rw [describeFuncs]⟩
        | cons f rest =>
          obtain ⟨hsz, hmade, s, b, ts, rfl⟩ := functions_part t hm f (by rw [hf, hc]; exact List.mem_cons_self)
          have hsub : ∀ u, u ∈ ts → ∀ c, ∃ fuel r, describeRoot w fuel u c = some r := by
            intro u m c
            have := size_child (h := .sig .func s b) m
            exact ih (sizeOf u) (by omega) u (Nat.le_refl _) (made_child hmade m) c
          have hitems : ∀ p, p ∈ (signature w (.node (.sig .func s b) ts)).1 → p.2 ∈ ts := by
            intro p m
            cases b with
            | false => exact items_mem (s := s) (w := w) m
            | true =>
              have : p ∈ items w s ts.dropLast := m
              exact (List.dropLast_sublist ts).mem (items_mem this)
          have hbody : ∀ u, (signature w (.node (.sig .func s b) ts)).2 = some u → u ∈ ts := by
            intro u hu
            cases b with
            | false => cases hu
            | true => exact List.mem_of_getLast? hu
          obtain ⟨f1, r1, h1⟩ := params_end w _ true ((t, selfText) :: c) (fun p m c => hsub p.2 (hitems p m) c)
          cases hb : (signature w (.node (.sig .func s b) ts)).2 with
          | none => exact ⟨f1 + 1, _, by rw [describeFuncs]; simp only; rw [h1]; simp only; rw [hb]⟩
          | some u =>
            obtain ⟨f2, r2, h2⟩ := hsub u (hbody u hb) r1.2
            have hne : describeFuncs w (max f1 f2 + 1) (.node (.sig .func s b) ts :: rest) ((t, selfText) :: c) ≠ none := by
              rw [describeFuncs]
              simp only
              rw [(describe_mono w (Nat.le_max_left f1 f2)).2 _ _ _ _ h1]
              simp only
              rw [hb]
              simp only
              rw [(describe_mono w (Nat.le_max_right f1 f2)).1 _ _ _ h2]
              simp
            obtain ⟨x, hx⟩ := Option.ne_none_iff_exists'.mp hne
            exact ⟨_, x, hx⟩
      obtain ⟨fuel, r, hr⟩ := hfuncs
      have hne : describeRoot w (fuel + 1) t c ≠ none := by
        rw [describeRoot, hl]
        simp only
        rw [hr]
        by_cases hres : (collect w t).1 ≠ []
        · rw [if_pos hres]; simp
        · rw [if_neg hres]
          simp only
          split <;> simp
      cases h : describeRoot w (fuel + 1) t c with
      | none => exact absurd h hne
      | some x => exact ⟨fuel + 1, x, h⟩

/-- C120: there is a description of every type. -/
theorem describe_ends (w : Words) (t : Ty) (hm : Made t) : ∃ fuel o, describe w fuel t = some o := by
  obtain ⟨fuel, r, h⟩ := root_ends w (sizeOf t) t (Nat.le_refl _) hm []
  exact ⟨fuel, r.1, by rw [describe, h]; rfl⟩

/-! ## Examples -/

def exampleWords : Words where
  leaf
    | .any => []
    | .bool _ => ['b', 'o', 'o', 'l']
    | .builtin 0 => ['i', 'n', 't']
    | .builtin _ => ['s', 't', 'r']
    | .value _ => ['1']
  name _ := ['k']

/-- A string, a number, a string again, or a function of a number. -/
def exampleType : Ty := .node .union [.leaf (.builtin 1), .leaf (.builtin 0), .leaf (.builtin 1),
  .node (.sig .func ⟨[3], 1, false, true⟩ true) [.leaf (.builtin 0), .node .tuple [], .leaf .any, .leaf (.bool none)]]

theorem example_made : Made exampleType := by
  refine .node _ _ (fun t m => ?_) (fun _ _ h => by cases h)
  simp at m
  rcases m with rfl | rfl | rfl | rfl
  · exact .leaf _
  · exact .leaf _
  · exact .leaf _
  · refine .node _ _ (fun t m => ?_) (fun _ _ _ => by simp)
    simp at m
    rcases m with rfl | rfl | rfl | rfl
    · exact .leaf _
    · exact .node _ _ (fun t m => by cases m) (fun _ _ h => by cases h)
    · exact .leaf _
    · exact .leaf _

theorem example_describe : describe exampleWords 20 exampleType = some (some "(int, k: array, ..: any) => bool | int | str".toList) := by
  have h1 : describe exampleWords 20 exampleType = some (some (joinBars (dedup (["str".toList, "int".toList, "str".toList,
      "(int, k: array, ..: any) => bool".toList].mergeSort fun a b => decide (a ≤ b))))) := rfl
  have h2 : (["str".toList, "int".toList, "str".toList, "(int, k: array, ..: any) => bool".toList].mergeSort fun a b => decide (a ≤ b)) =
      ["(int, k: array, ..: any) => bool".toList, "int".toList, "str".toList, "str".toList] := by
    refine List.Perm.eq_of_pairwise (le := fun a b : Text => a ≤ b) (fun a b _ _ h1 h2 => List.le_antisymm h1 h2) ?_ (by decide)
      ((List.mergeSort_perm _ _).trans (by decide))
    exact (List.pairwise_mergeSort (le := fun a b : Text => decide (a ≤ b))
      (fun a b c h1 h2 => decide_eq_true (List.le_trans (of_decide_eq_true h1) (of_decide_eq_true h2)))
      (fun a b => by simpa using List.le_total a b) _).imp fun h => of_decide_eq_true h
  rw [h1, h2]
  decide

/-- Of two functions, only the first one is described: the text for one that gives a number or one that gives a string is the text for the
first. -/
theorem second_function_lost :
    describe exampleWords 20 (.node .union [.node (.sig .func ⟨[], 0, false, false⟩ true) [.leaf (.builtin 0)],
      .node (.sig .func ⟨[], 0, false, false⟩ true) [.leaf (.builtin 1)]]) =
    describe exampleWords 20 (.node (.sig .func ⟨[], 0, false, false⟩ true) [.leaf (.builtin 0)]) := by
  decide +kernel

end Tinymist.Types
