import Verif.Lemmas.DocTypes
/-!
# Types in doc comments (C174)
-/

namespace Tinymist.DocTypes
open Spec

variable {types : Text → Option Text} {m : Mod}

/-! ## Plain types -/

/-- What is noted about names is right, and no closure is open. -/
structure Sound (types : Text → Option Text) (m : Mod) (st : St) : Prop where
  locals : st.locals = []
  globals : ∀ x r, find x st.globals = some r → ∀ t, r = some t ↔ Means types m (.ident x) t

theorem sound_init : Sound types m St.init := ⟨rfl, fun _ _ h => by cases h⟩

/-- The result of a check is what is meant. -/
def Right (types : Text → Option Text) (m : Mod) (c : Check) (e : Expr) : Prop :=
  ∀ st r st', Sound types m st → c e st = some (r, st') → Sound types m st' ∧ ∀ t, r = some t ↔ Means types m e t

inductive AllMean (types : Text → Option Text) (m : Mod) : List Expr → List Ty → Prop where
  | nil : AllMean types m [] []
  | cons (e es t ts) (h : Means types m e t) (hs : AllMean types m es ts) : AllMean types m (e :: es) (t :: ts)

theorem checkAll_right {c : Check} : ∀ {es : List Expr}, (∀ e ∈ es, Right types m c e) → ∀ st r st', Sound types m st →
    checkAll c es st = some (r, st') → Sound types m st' ∧ ∀ ts, r = some ts ↔ AllMean types m es ts := by
  intro es
  induction es with
  | nil =>
    intro _ st r st' hs h
    cases h
    refine ⟨hs, fun ts => ?_⟩
    constructor
    · intro h; cases h; exact .nil
    · intro h; cases h; rfl
  | cons e es ih =>
    intro hr st r st' hs h
    unfold checkAll at h
    cases hc : c e st with
    | none => rw [hc] at h; cases h
    | some p =>
      obtain ⟨o, st2⟩ := p
      rw [hc] at h
      obtain ⟨hs2, hm⟩ := hr e (List.mem_cons_self ..) st o st2 hs hc
      cases o with
      | none =>
        cases h
        refine ⟨hs2, fun ts => ?_⟩
        constructor
        · intro h; cases h
        · intro h
          cases h with
          | cons _ _ t ts h _ => exact absurd ((hm t).mpr h) (by simp)
      | some t =>
        simp only at h
        cases ha : checkAll c es st2 with
        | none => rw [ha] at h; cases h
        | some q =>
          obtain ⟨o2, st3⟩ := q
          obtain ⟨hs3, hm3⟩ := ih (fun x hx => hr x (List.mem_cons_of_mem _ hx)) st2 o2 st3 hs2 ha
          rw [ha] at h
          cases o2 with
          | none =>
            cases h
            refine ⟨hs3, fun ts => ?_⟩
            constructor
            · intro h; cases h
            · intro h
              cases h with
              | cons _ _ t ts _ h => exact absurd ((hm3 ts).mpr h) (by simp)
          | some ts0 =>
            cases h
            refine ⟨hs3, fun ts => ?_⟩
            constructor
            · intro h
              cases h
              exact .cons e es t ts0 ((hm t).mp rfl) ((hm3 ts0).mp rfl)
            · intro h
              cases h with
              | cons _ _ t' ts' h1 h2 =>
                have e1 := (hm t').mpr h1
                have e2 := (hm3 ts').mpr h2
                injection e1 with e1
                injection e2 with e2
                rw [e1, e2]

theorem rest_other {e : Expr} {ts : List Ty} (hop : operands e = [e]) (hne : ∀ l r, e ≠ .binary true l r) :
    Rest types m e ts ↔ AllMean types m (operands e) ts := by
  rw [hop]
  constructor
  · intro h
    cases h with
    | more l r t ts _ _ => exact absurd rfl (hne l r)
    | last _ t _ h => exact .cons e [] t [] h .nil
  · intro h
    cases h with
    | cons _ _ t ts h hs =>
      cases hs
      exact .last e t hne h

theorem rest_iff : ∀ (r : Expr) (ts : List Ty), Rest types m r ts ↔ AllMean types m (operands r) ts
  | .binary true l r, ts => by
    rw [operands]
    constructor
    · intro h
      cases h with
      | more _ _ t ts hl hr => exact .cons l _ t ts hl ((rest_iff r ts).mp hr)
      | last _ t he h => exact absurd rfl (he l r)
    · intro h
      cases h with
      | cons _ _ t ts h hs => exact .more l r t ts h ((rest_iff r ts).mpr hs)
  | .binary false l r, ts => rest_other rfl (by intro a b h; cases h)
  | .ident x, ts => rest_other rfl (by intro a b h; cases h)
  | .str x, ts => rest_other rfl (by intro a b h; cases h)
  | .lit x, ts => rest_other rfl (by intro a b h; cases h)
  | .call c f, ts => rest_other rfl (by intro a b h; cases h)
  | .closure ps b, ts => rest_other rfl (by intro a b h; cases h)
  | .other, ts => rest_other rfl (by intro a b h; cases h)

theorem operands_ne (r : Expr) : operands r ≠ [] := by
  unfold operands
  split <;> simp

theorem operands_plain : ∀ (r : Expr), Plain r → ∀ e ∈ operands r, Plain e
  | .binary true l r, h, e, he => by
    cases h with
    | binary _ _ hl hr =>
      rw [operands] at he
      rcases List.mem_cons.mp he with he | he
      · rw [he]; exact hl
      · exact operands_plain r hr e he
  | .binary false l r, h, e, he => by cases h
  | .ident x, h, e, he => by
    have he : e ∈ [Expr.ident x] := he
    rw [List.mem_singleton] at he
    rw [he]; exact h
  | .str x, h, e, he => by
    have he : e ∈ [Expr.str x] := he
    rw [List.mem_singleton] at he
    rw [he]; exact h
  | .lit x, h, e, he => by
    have he : e ∈ [Expr.lit x] := he
    rw [List.mem_singleton] at he
    rw [he]; exact h
  | .call c f, h, e, he => by
    have he : e ∈ [Expr.call c f] := he
    rw [List.mem_singleton] at he
    rw [he]; exact h
  | .closure ps b, h, e, he => by cases h
  | .other, h, e, he => by
    have he : e ∈ [Expr.other] := he
    rw [List.mem_singleton] at he
    rw [he]; exact h

theorem find_cons {α : Type} (x y : Text) (v : α) (l : List (Text × α)) : find x ((y, v) :: l) = if y = x then some v else find x l := rfl

theorem ident_right {c : Check} (h : ∀ e, Plain e → Right types m c e) (hm : PlainMod m) (x : Text) (st : St) (r : Option Ty) (st' : St)
    (hs : Sound types m st) (hr : checkIdent types m c x st = some (r, st')) :
    Sound types m st' ∧ ∀ t, r = some t ↔ Means types m (.ident x) t := by
  unfold checkIdent at hr
  cases hb : builtinOf types x with
  | some t =>
    rw [hb] at hr
    cases hr
    refine ⟨hs, fun u => ?_⟩
    constructor
    · intro e
      cases e
      exact .builtin x t (builtin_iff.mp hb)
    · intro hmean
      cases hmean with
      | builtin _ _ h =>
        rw [builtin_iff.mpr h] at hb
        exact hb.symm
      | bound _ e _ hnb _ _ => exact absurd ⟨t, builtin_iff.mp hb⟩ hnb
  | none =>
    have hnb := builtin_none.mp hb
    rw [hb, hs.locals] at hr
    simp only [find] at hr
    cases hg : find x st.globals with
    | some q =>
      rw [hg] at hr
      cases hr
      exact ⟨hs, hs.globals x _ hg⟩
    | none =>
      rw [hg] at hr
      have hnone : (∀ e, m x ≠ some (some e)) → ∀ t, none = some t ↔ Means types m (.ident x) t := by
        intro hn t
        constructor
        · intro h; cases h
        · intro h
          cases h with
          | builtin _ _ h => exact absurd ⟨t, h⟩ hnb
          | bound _ e _ _ hx _ => exact absurd hx (hn e)
      cases hmx : m x with
      | none =>
        rw [hmx] at hr
        cases hr
        exact ⟨hs, hnone (by rw [hmx]; intro e h; cases h)⟩
      | some o =>
        cases o with
        | none =>
          rw [hmx] at hr
          cases hr
          exact ⟨hs, hnone (by rw [hmx]; intro e h; cases h)⟩
        | some e =>
          rw [hmx] at hr
          obtain ⟨q, hq, hr⟩ := Option.map_eq_some_iff.mp hr
          cases hr
          obtain ⟨hs2, hmean⟩ := h e (hm x e hmx) st q.1 q.2 hs hq
          have key : ∀ t, q.1 = some t ↔ Means types m (.ident x) t := by
            intro t
            rw [hmean]
            constructor
            · exact fun h => .bound x e t hnb hmx h
            · intro h
              cases h with
              | builtin _ _ h => exact absurd ⟨t, h⟩ hnb
              | bound _ e' _ _ hx h =>
                rw [hmx] at hx
                cases hx
                exact h
          refine ⟨⟨hs2.locals, ?_⟩, key⟩
          intro y s hy
          simp only at hy
          rw [find_cons] at hy
          split at hy
          · rename_i e
            subst e
            cases hy
            exact key
          · exact hs2.globals y s hy

/-- Plain types mean what they say, in any order and however often they were looked up before.
Missing: definitions with functions and binary operators other than `or`. -/
theorem plain_right_partial (hm : PlainMod m) : ∀ n e, Plain e → Right types m (check types m n) e := by
  intro n
  induction n with
  | zero =>
    intro e _ st r st' _ h
    cases h
  | succ n ih =>
    intro e he st r st' hs h
    unfold check at h
    cases he with
    | ident x => exact ident_right ih hm x st r st' hs h
    | str s =>
      cases h
      refine ⟨hs, fun t => ⟨fun h => ?_, fun h => ?_⟩⟩
      · cases h; exact .str s
      · cases h; rfl
    | lit s =>
      cases h
      refine ⟨hs, fun t => ⟨fun h => ?_, fun h => ?_⟩⟩
      · cases h; exact .lit s
      · cases h; rfl
    | binary l r' hl hr' =>
      obtain ⟨q, hq, hr⟩ := Option.map_eq_some_iff.mp h
      cases hr
      have hright : ∀ e ∈ l :: operands r', Right types m (check types m n) e := by
        intro e he
        rcases List.mem_cons.mp he with rfl | he
        · exact ih _ hl
        · exact ih _ (operands_plain r' hr' e he)
      obtain ⟨hs2, hmean⟩ := checkAll_right hright st q.1 q.2 hs hq
      refine ⟨hs2, fun t => ?_⟩
      constructor
      · intro h
        obtain ⟨ts, hts, rfl⟩ := Option.map_eq_some_iff.mp h
        have := (hmean ts).mp hts
        cases this with
        | cons _ _ t ts h1 h2 =>
          have hrest := (rest_iff r' ts).mpr h2
          have hne : ts ≠ [] := by
            rintro rfl
            cases hrest
          cases ts with
          | nil => exact absurd rfl hne
          | cons u ts => exact .union l r' t (u :: ts) h1 hrest
      · intro h
        cases h with
        | union _ _ t ts h1 h2 =>
          have := (hmean (t :: ts)).mpr (.cons _ _ t ts h1 ((rest_iff r' ts).mp h2))
          rw [this]
          have hne : ts ≠ [] := by
            rintro rfl
            cases h2
          cases ts with
          | nil => exact absurd rfl hne
          | cons u ts => rfl
    | call0 c =>
      have hno : r = none ∧ st' = st := by
        cases c with
        | none => cases h; exact ⟨rfl, rfl⟩
        | some c =>
          simp only at h
          split at h
          · cases h; exact ⟨rfl, rfl⟩
          · split at h <;> (cases h; exact ⟨rfl, rfl⟩)
      obtain ⟨rfl, rfl⟩ := hno
      refine ⟨hs, fun t => ⟨fun h => (by cases h), fun h => (by cases h)⟩⟩
    | call c e he =>
      cases c with
      | none =>
        cases h
        refine ⟨hs, fun t => ⟨fun h => (by cases h), fun h => (by cases h)⟩⟩
      | some c =>
        simp only at h
        split at h
        · rename_i hc
          subst hc
          obtain ⟨q, hq, hr⟩ := Option.map_eq_some_iff.mp h
          cases hr
          obtain ⟨hs2, hmean⟩ := ih e he st q.1 q.2 hs hq
          refine ⟨hs2, fun t => ?_⟩
          constructor
          · intro h
            obtain ⟨u, hu, rfl⟩ := Option.map_eq_some_iff.mp h
            exact .array e u ((hmean u).mp hu)
          · intro h
            have hinv : ∀ (k : Expr) (t : Ty), Means types m k t → k = .call (some ['a', 'r', 'r', 'a', 'y']) (some e) →
                ∃ u, t = .array u ∧ Means types m e u := by
              intro k t hk hke
              cases hk with
              | array e' u h =>
                injection hke with _ h2
                injection h2 with h2
                subst h2
                exact ⟨u, rfl, by assumption⟩
              | tag s => injection hke with h1 _; injection h1 with h1; exact absurd h1 (by decide)
              | _ => cases hke
            obtain ⟨u, rfl, hu⟩ := hinv _ _ h rfl
            rw [(hmean u).mpr hu]
            rfl
        · rename_i hc
          split at h
          · rename_i hc2
            subst hc2
            have hinv : ∀ (k : Expr) (t : Ty), Means types m k t → k = .call (some ['t', 'a', 'g']) (some e) →
                ∃ s, t = .tag s ∧ e = .str s := by
              intro k t hk hke
              cases hk with
              | array e' u h => injection hke with h1 _; injection h1 with h1; exact absurd h1 (by decide)
              | tag s =>
                injection hke with _ h2
                injection h2 with h2
                exact ⟨s, rfl, h2.symm⟩
              | _ => cases hke
            split at h
            · rename_i s hes
              injection hes with hes
              subst hes
              cases h
              refine ⟨hs, fun t => ⟨fun h => ?_, fun h => ?_⟩⟩
              · cases h; exact .tag s
              · obtain ⟨s', rfl, hs'⟩ := hinv _ _ h rfl
                cases hs'
                rfl
            · rename_i hno
              cases h
              refine ⟨hs, fun t => ⟨fun h => (by cases h), fun h => ?_⟩⟩
              obtain ⟨s', rfl, hs'⟩ := hinv _ _ h rfl
              subst hs'
              exact absurd rfl (hno s')
          · rename_i hc2
            cases h
            refine ⟨hs, fun t => ⟨fun h => (by cases h), fun h => ?_⟩⟩
            cases h with
            | array => exact absurd rfl hc
            | tag => exact absurd rfl hc2
    | other =>
      cases h
      refine ⟨hs, fun t => ⟨fun h => (by cases h), fun h => (by cases h)⟩⟩

theorem names_right (hm : PlainMod m) (n : Nat) : ∀ (xs : List Text) (st : St) (ts : List Ty) (st' : St), Sound types m st →
    checkNames types m n xs st = some (ts, st') → Sound types m st' ∧ Known types m xs ts := by
  intro xs
  induction xs with
  | nil =>
    intro st ts st' hs h
    cases h
    exact ⟨hs, .nil⟩
  | cons x xs ih =>
    intro st ts st' hs h
    unfold checkNames at h
    cases hc : checkIdent types m (check types m n) x st with
    | none => rw [hc] at h; cases h
    | some p =>
      obtain ⟨r, st2⟩ := p
      rw [hc] at h
      obtain ⟨hs2, hmean⟩ := ident_right (plain_right_partial hm n) hm x st r st2 hs hc
      obtain ⟨q, hq, h⟩ := Option.map_eq_some_iff.mp h
      cases h
      obtain ⟨hs3, hk⟩ := ih st2 q.1 q.2 hs2 hq
      refine ⟨hs3, ?_⟩
      cases r with
      | none =>
        refine .unknown x xs q.1 ?_ hk
        rintro ⟨t, ht⟩
        exact absurd ((hmean t).mpr ht) (by simp)
      | some t => exact .known x xs t q.1 ((hmean t).mp rfl) hk

/-- The types of a parameter are those of the names that mean something, whatever was looked up before. -/
theorem strings_right (hm : PlainMod m) (n : Nat) (input : Text) (xs : List Text) (hx : Listed input xs) (st : St) (t : Ty) (st' : St)
    (hs : Sound types m st) (h : checkStrings types m n input st = some (t, st')) : Sound types m st' ∧ TypeOf types m input t := by
  unfold checkStrings at h
  rw [listed_split hx] at h
  obtain ⟨q, hq, h⟩ := Option.map_eq_some_iff.mp h
  cases h
  obtain ⟨hs2, hk⟩ := names_right hm n xs st q.1 q.2 hs hq
  exact ⟨hs2, xs, q.1, hx, hk, joined_iff.mp rfl⟩

theorem means_unique (hm : PlainMod m) {rank : Text → Nat} (hr : Ranked m rank) {x : Text} {t u : Ty} (h1 : Means types m (.ident x) t)
    (h2 : Means types m (.ident x) u) : t = u := by
  obtain ⟨N, hN⟩ := enough_ident (types := types) (good_ranked hr (rank x + 1) x (by omega))
  obtain ⟨⟨r, st'⟩, hp⟩ := Option.isSome_iff_exists.mp (hN N (Nat.le_refl _) St.init)
  obtain ⟨_, hmean⟩ := plain_right_partial hm N (.ident x) (.ident x) St.init r st' sound_init hp
  have e1 := (hmean t).mpr h1
  have e2 := (hmean u).mpr h2
  rw [e1] at e2
  exact Option.some.inj e2

theorem insertNamed_find (x : Text) (t : Ty) (l : List (Text × Ty)) (y : Text) :
    find y (insertNamed x t l) = if x = y then some t else find y l := by
  induction l with
  | nil => rfl
  | cons p l ih =>
    obtain ⟨k, u⟩ := p
    unfold insertNamed
    split
    · rename_i e
      subst e
      rw [find_cons, find_cons]
      split <;> rfl
    · rename_i hne
      rw [find_cons, find_cons, ih]
      split
      · rename_i e
        subst e
        rw [if_neg (fun h => hne h.symm)]
      · rfl

/-- The parameters of a doc comment: each has the types that its last description gives it, and no other is there. -/
theorem vars_right (hm : PlainMod m) (n : Nat) : ∀ (ps : List (Text × Text)), (∀ p ∈ ps, ∃ xs, Listed p.2 xs) →
    ∀ (acc : List (Text × Ty)) (st : St) (vs : List (Text × Ty)) (st' : St), Sound types m st → checkVars types m n ps acc st = some (vs, st') →
    ∀ y t, find y vs = some t →
      (∃ a b input, ps = a ++ (y, input) :: b ∧ (∀ p ∈ b, p.1 ≠ y) ∧ TypeOf types m input t) ∨ ((∀ p ∈ ps, p.1 ≠ y) ∧ find y acc = some t) := by
  intro ps
  induction ps with
  | nil =>
    intro _ acc st vs st' _ h y t hy
    cases h
    exact .inr ⟨by simp, hy⟩
  | cons p ps ih =>
    intro hl acc st vs st' hs h y t hy
    obtain ⟨x, input⟩ := p
    unfold checkVars at h
    cases hc : checkStrings types m n input st with
    | none => rw [hc] at h; cases h
    | some q =>
      obtain ⟨u, st2⟩ := q
      rw [hc] at h
      obtain ⟨xs, hx⟩ := hl _ (List.mem_cons_self ..)
      obtain ⟨hs2, ht⟩ := strings_right hm n input xs hx st u st2 hs hc
      rcases ih (fun p hp => hl p (List.mem_cons_of_mem _ hp)) _ st2 vs st' hs2 h y t hy with ⟨a, b, i, rfl, hb, hi⟩ | ⟨hb, hf⟩
      · exact .inl ⟨(x, input) :: a, b, i, rfl, hb, hi⟩
      · rw [insertNamed_find] at hf
        split at hf
        · rename_i e
          subst e
          cases hf
          exact .inl ⟨[], ps, input, rfl, hb, ht⟩
        · rename_i hne
          refine .inr ⟨?_, hf⟩
          intro p hp
          rcases List.mem_cons.mp hp with rfl | hp
          · exact hne
          · exact hb p hp

/-- Every parameter that is described gets types. -/
theorem vars_all (n : Nat) : ∀ (ps : List (Text × Text)) (acc : List (Text × Ty)) (st : St) (vs : List (Text × Ty)) (st' : St),
    checkVars types m n ps acc st = some (vs, st') → ∀ y, (∃ p ∈ ps, p.1 = y) ∨ (find y acc).isSome = true → (find y vs).isSome = true := by
  intro ps
  induction ps with
  | nil =>
    intro acc st vs st' h y hy
    cases h
    rcases hy with ⟨p, hp, _⟩ | h
    · cases hp
    · exact h
  | cons p ps ih =>
    intro acc st vs st' h y hy
    obtain ⟨x, input⟩ := p
    unfold checkVars at h
    cases hc : checkStrings types m n input st with
    | none => rw [hc] at h; cases h
    | some q =>
      rw [hc] at h
      refine ih _ _ vs st' h y ?_
      rw [insertNamed_find]
      rcases hy with ⟨p, hp, hy⟩ | h
      · rcases List.mem_cons.mp hp with rfl | hp
        · right
          rw [if_pos hy]
          rfl
        · exact .inl ⟨p, hp, hy⟩
      · right
        split
        · rfl
        · exact h

/-! ## It ends, unless it is circular -/

/-- Types that are not circular are found with enough fuel, in every state, closures or not, and more fuel does not change them.
Missing: definitions that refer to each other in a circle, which are followed for ever. -/
theorem ends_partial {rank : Text → Nat} (hr : Ranked m rank) (e : Expr) :
    ∃ N, ∀ st, ∃ r, ∀ n, N ≤ n → check types m n e st = some r := by
  obtain ⟨N, hN⟩ := enough_expr (types := types) e (fun y _ => good_ranked hr (rank y + 1) y (by omega))
  refine ⟨N, fun st => ?_⟩
  obtain ⟨r, h⟩ := Option.isSome_iff_exists.mp (hN N (Nat.le_refl _) st)
  exact ⟨r, fun n hn => check_le hn e st r h⟩

/-- Names that stand for each other in a circle are looked up for ever: no amount of fuel is enough. -/
theorem circular (C : Text → Prop) (hC : ∀ x, C x → (¬∃ t, Builtin types x t) ∧ ∃ e y, m x = some (some e) ∧ Needs e y ∧ C y) (st : St)
    (hl : ∀ x, C x → find x st.locals = none) (hg : ∀ x, C x → find x st.globals = none) :
    ∀ n e x, Needs e x → C x → check types m n e st = none := by
  intro n
  induction n with
  | zero => exact fun _ _ _ _ => rfl
  | succ n ih =>
    intro e x he hx
    unfold check
    cases he with
    | ident =>
      obtain ⟨hb, e', y, hm, hn, hy⟩ := hC x hx
      simp only [checkIdent, builtin_none.mpr hb, hl x hx, hg x hx, hm, ih e' y hn hy, Option.map_none]
    | binary o l r _ h =>
      simp only [checkAll, ih l x h hx, Option.map_none]
    | array e _ h =>
      simp only
      rw [if_pos (by decide)]
      simp only [ih e x h hx, Option.map_none]

/-- Which operator it is makes no difference: `a and b` and `a + b` are unions too. -/
theorem operator_ignored (n : Nat) (o : Bool) (l r : Expr) (st : St) :
    check types m n (.binary o l r) st = check types m n (.binary true l r) st := by
  cases n <;> rfl

/-! ## Closures -/

/-- What checks do to the state: variables are numbered one after the other, and what is noted about names stays. -/
structure Grows (st st' : St) : Prop where
  next : st.next ≤ st'.next
  vars : st.vars.map Prod.fst = (List.range' 1 st.next).reverse → st'.vars.map Prod.fst = (List.range' 1 st'.next).reverse
  globals : ∀ x r, find x st.globals = some r → find x st'.globals = some r

theorem Grows.refl (st : St) : Grows st st := ⟨Nat.le_refl _, id, fun _ _ h => h⟩

theorem Grows.trans {a b c : St} (h : Grows a b) (k : Grows b c) : Grows a c :=
  ⟨Nat.le_trans h.next k.next, fun x => k.vars (h.vars x), fun x r hx => k.globals x r (h.globals x r hx)⟩

theorem grows_generate (st : St) (n : Text) (l : List (Text × Ty)) : Grows st { (st.generate n).2 with locals := l } := by
  refine ⟨by simp [St.generate], ?_, fun _ _ h => h⟩
  intro h
  simp only [St.generate, List.map_cons, h]
  rw [List.range'_concat]
  simp [Nat.add_comm]

/-- Checks that grow the state and leave the local names alone. -/
def Tidy (c : Check) : Prop := ∀ e st r st', c e st = some (r, st') → Grows st st' ∧ st'.locals = st.locals

theorem checkAll_tidy {c : Check} (h : Tidy c) : ∀ (es : List Expr) (st : St) (r : Option (List Ty)) (st' : St),
    checkAll c es st = some (r, st') → Grows st st' ∧ st'.locals = st.locals := by
  intro es
  induction es with
  | nil =>
    intro st r st' hr
    cases hr
    exact ⟨.refl _, rfl⟩
  | cons e es ih =>
    intro st r st' hr
    unfold checkAll at hr
    cases hc : c e st with
    | none => rw [hc] at hr; cases hr
    | some p =>
      obtain ⟨o, st2⟩ := p
      obtain ⟨h1, h2⟩ := h e st o st2 hc
      rw [hc] at hr
      cases o with
      | none =>
        cases hr
        exact ⟨h1, h2⟩
      | some t =>
        simp only at hr
        cases ha : checkAll c es st2 with
        | none => rw [ha] at hr; cases hr
        | some q =>
          obtain ⟨o2, st3⟩ := q
          obtain ⟨h3, h4⟩ := ih st2 o2 st3 ha
          rw [ha] at hr
          cases o2 with
          | none =>
            cases hr
            exact ⟨h1.trans h3, h4.trans h2⟩
          | some ts =>
            cases hr
            exact ⟨h1.trans h3, h4.trans h2⟩

theorem checkParams_grows {c : Check} (h : Tidy c) : ∀ (ps : List Param) (s : Sig) (st : St) (s' : Sig) (st' : St),
    checkParams c ps s st = some (s', st') → Grows st st' := by
  intro ps
  induction ps with
  | nil =>
    intro s st s' st' hr
    cases hr
    exact .refl _
  | cons p ps ih =>
    intro s st s' st' hr
    cases p with
    | pos n =>
      cases n with
      | none => exact ih _ _ _ _ hr
      | some n => exact (grows_generate st n _).trans (ih _ _ _ _ hr)
    | named n e =>
      unfold checkParams at hr
      cases hc : c e st with
      | none => rw [hc] at hr; cases hr
      | some q =>
        obtain ⟨o, st2⟩ := q
        rw [hc] at hr
        exact (h e st o st2 hc).1.trans (ih _ _ _ _ hr)
    | spread n =>
      cases n with
      | none => exact ih _ _ _ _ hr
      | some n => exact (grows_generate st n _).trans (ih _ _ _ _ hr)

/-- Names bound by a closure are gone after it, whether it means something or not; variables get different numbers; and what is noted about
names is never changed. -/
theorem tidy (n : Nat) : Tidy (check types m n) := by
  induction n with
  | zero =>
    intro e st r st' h
    cases h
  | succ n ih =>
    intro e st r st' h
    unfold check at h
    cases e with
    | ident x =>
      unfold checkIdent at h
      simp only at h
      split at h
      · cases h; exact ⟨.refl _, rfl⟩
      split at h
      · cases h; exact ⟨.refl _, rfl⟩
      split at h
      · cases h; exact ⟨.refl _, rfl⟩
      rename_i hg
      split at h
      · cases h; exact ⟨.refl _, rfl⟩
      · cases h; exact ⟨.refl _, rfl⟩
      · rename_i e _
        obtain ⟨q, hq, h⟩ := Option.map_eq_some_iff.mp h
        cases h
        obtain ⟨h1, h2⟩ := ih e st q.1 q.2 hq
        refine ⟨⟨h1.next, h1.vars, ?_⟩, h2⟩
        intro y r hy
        simp only
        rw [find_cons]
        split
        · rename_i e
          subst e
          rw [hg] at hy
          cases hy
        · exact h1.globals y r hy
    | str s => cases h; exact ⟨.refl _, rfl⟩
    | lit v => cases h; exact ⟨.refl _, rfl⟩
    | binary o l r' =>
      obtain ⟨q, hq, h⟩ := Option.map_eq_some_iff.mp h
      cases h
      exact checkAll_tidy ih _ st q.1 q.2 hq
    | call c f =>
      cases c with
      | none => cases h; exact ⟨.refl _, rfl⟩
      | some c =>
        simp only at h
        split at h
        · cases f with
          | none => cases h; exact ⟨.refl _, rfl⟩
          | some e =>
            obtain ⟨q, hq, h⟩ := Option.map_eq_some_iff.mp h
            cases h
            exact ih e st q.1 q.2 hq
        · split at h
          · split at h <;> (cases h; exact ⟨.refl _, rfl⟩)
          · cases h; exact ⟨.refl _, rfl⟩
    | closure ps b =>
      simp only [checkClosure] at h
      cases hp : checkParams (check types m n) ps ⟨[], [], none⟩ st with
      | none => rw [hp] at h; cases h
      | some q =>
        obtain ⟨s, st2⟩ := q
        rw [hp] at h
        simp only at h
        cases hb : check types m n b st2 with
        | none => rw [hb] at h; cases h
        | some p =>
          obtain ⟨o, st3⟩ := p
          rw [hb] at h
          cases h
          have g := (checkParams_grows ih ps _ st s st2 hp).trans (ih b st2 o st3 hb).1
          exact ⟨⟨g.next, g.vars, g.globals⟩, rfl⟩
    | other => cases h; exact ⟨.refl _, rfl⟩

/-- The variables generated have different numbers. -/
theorem fresh (n : Nat) (e : Expr) (r : Option Ty) (st' : St) (h : check types m n e St.init = some (r, st')) :
    (st'.vars.map Prod.fst).Nodup := by
  have := (tidy n e St.init r st' h).1.vars (by rfl)
  rw [this]
  unfold List.Nodup
  rw [List.pairwise_reverse]
  exact (List.nodup_range' (n := st'.next) (s := 1)).imp fun h => h.symm

/-- The body of a closure is read with its parameters standing for new variables. -/
theorem closure_reads (n : Nat) (x : Text) (body : Expr) (st : St) :
    check types m (n + 1) (.closure [.pos (some x)] body) st =
      (check types m n body { st with locals := (x, .var (st.next + 1) x) :: st.locals, vars := (st.next + 1, x) :: st.vars, next := st.next + 1 }).map
        fun r => (r.1.map (.func [.var (st.next + 1) x] [] none), { r.2 with locals := st.locals }) := by
  show checkClosure (check types m n) [.pos (some x)] body st = _
  generalize check types m n = c
  simp only [checkClosure, checkParams, St.generate, List.nil_append]
  cases c body { st with locals := (x, .var (st.next + 1) x) :: st.locals, vars := (st.next + 1, x) :: st.vars, next := st.next + 1 } with
  | none => rfl
  | some r => rfl

/-- So is it with a parameter that takes the rest of the arguments. -/
theorem rest_reads (n : Nat) (x : Text) (body : Expr) (st : St) :
    check types m (n + 1) (.closure [.spread (some x)] body) st =
      (check types m n body { st with locals := (x, .var (st.next + 1) x) :: st.locals, vars := (st.next + 1, x) :: st.vars, next := st.next + 1 }).map
        fun r => (r.1.map (.func [] [] (some (.var (st.next + 1) x))), { r.2 with locals := st.locals }) := by
  show checkClosure (check types m n) [.spread (some x)] body st = _
  generalize check types m n = c
  simp only [checkClosure, checkParams, St.generate]
  cases c body { st with locals := (x, .var (st.next + 1) x) :: st.locals, vars := (st.next + 1, x) :: st.vars, next := st.next + 1 } with
  | none => rfl
  | some r => rfl

/-- The positional parameters of a closure, with their names if they are names. -/
def positional : List Param → List (Option Text)
  | [] => []
  | .pos n :: ps => n :: positional ps
  | _ :: ps => positional ps

theorem mem_insertNamed {n k : Text} {t : Ty} : ∀ {l : List (Text × Ty)}, k ∈ (insertNamed n t l).map Prod.fst ↔ k = n ∨ k ∈ l.map Prod.fst
  | [] => by simp [insertNamed]
  | (j, u) :: l => by
    unfold insertNamed
    split
    · rename_i h
      subst h
      simp
    · simp only [List.map_cons, List.mem_cons, mem_insertNamed (l := l)]
      constructor
      · rintro (h | h | h)
        · exact .inr (.inl h)
        · exact .inl h
        · exact .inr (.inr h)
      · rintro (h | h | h)
        · exact .inr (.inl h)
        · exact .inl h
        · exact .inr (.inr h)

/-- **C175.** A function type has the parameters that are written: as many positional ones, each a variable of its name, or any type if it has no
name; those with a name by their names; and one for the rest, if one is written. -/
theorem params_shape {chk : Check} : ∀ (ps : List Param) {s s' : Sig} {st st' : St}, checkParams chk ps s st = some (s', st') →
    (∃ ts, s'.pos = s.pos ++ ts ∧ ts.length = (positional ps).length ∧
      ∀ (i : Nat) (n : Option Text), (positional ps)[i]? = some n → ∃ t, ts[i]? = some t ∧ (n = none → t = .any) ∧ ∀ x, n = some x → ∃ v, t = .var v x) ∧
    (∀ n, n ∈ s'.named.map Prod.fst ↔ n ∈ s.named.map Prod.fst ∨ ∃ e, .named n e ∈ ps) ∧
    (s'.rest.isSome = true ↔ s.rest.isSome = true ∨ ∃ n, .spread (some n) ∈ ps)
  | [], s, s', st, st', h => by
    cases h
    exact ⟨⟨[], by simp, rfl, by simp [positional]⟩, by simp, by simp⟩
  | .pos (some x) :: ps, s, s', st, st', h => by
    simp only [checkParams, St.generate] at h
    obtain ⟨⟨ts, h1, h2, h3⟩, h4, h5⟩ := params_shape ps h
    refine ⟨⟨.var (st.next + 1) x :: ts, by simp [h1], by simp [positional, h2], ?_⟩, by simpa using h4, by simpa using h5⟩
    intro i n hn
    cases i with
    | zero =>
      simp only [positional, List.getElem?_cons_zero, Option.some.injEq] at hn
      subst hn
      exact ⟨_, rfl, fun h => (by cases h), fun y hy => (by cases hy; exact ⟨_, rfl⟩)⟩
    | succ i => exact h3 i n (by simpa [positional] using hn)
  | .pos none :: ps, s, s', st, st', h => by
    simp only [checkParams] at h
    obtain ⟨⟨ts, h1, h2, h3⟩, h4, h5⟩ := params_shape ps h
    refine ⟨⟨.any :: ts, by simp [h1], by simp [positional, h2], ?_⟩, by simpa using h4, by simpa using h5⟩
    intro i n hn
    cases i with
    | zero =>
      simp only [positional, List.getElem?_cons_zero, Option.some.injEq] at hn
      subst hn
      exact ⟨_, rfl, fun _ => rfl, fun y hy => (by cases hy)⟩
    | succ i => exact h3 i n (by simpa [positional] using hn)
  | .named k e :: ps, s, s', st, st', h => by
    simp only [checkParams] at h
    cases hc : chk e st with
    | none => rw [hc] at h; cases h
    | some r =>
      rw [hc] at h
      obtain ⟨⟨ts, h1, h2, h3⟩, h4, h5⟩ := params_shape ps h
      refine ⟨⟨ts, h1, by simpa [positional] using h2, fun i n hn => h3 i n (by simpa [positional] using hn)⟩, ?_, by simpa using h5⟩
      intro n
      rw [h4, mem_insertNamed]
      constructor
      · rintro ((rfl | h) | ⟨e', h⟩)
        · exact .inr ⟨e, List.mem_cons_self ..⟩
        · exact .inl h
        · exact .inr ⟨e', List.mem_cons_of_mem _ h⟩
      · rintro (h | ⟨e', h⟩)
        · exact .inl (.inr h)
        · rcases List.mem_cons.mp h with h | h
          · cases h
            exact .inl (.inl rfl)
          · exact .inr ⟨e', h⟩
  | .spread none :: ps, s, s', st, st', h => by
    simp only [checkParams] at h
    obtain ⟨⟨ts, h1, h2, h3⟩, h4, h5⟩ := params_shape ps h
    exact ⟨⟨ts, h1, by simpa [positional] using h2, fun i n hn => h3 i n (by simpa [positional] using hn)⟩, by simpa using h4, by simpa using h5⟩
  | .spread (some x) :: ps, s, s', st, st', h => by
    simp only [checkParams, St.generate] at h
    obtain ⟨⟨ts, h1, h2, h3⟩, h4, h5⟩ := params_shape ps h
    refine ⟨⟨ts, h1, by simpa [positional] using h2, fun i n hn => h3 i n (by simpa [positional] using hn)⟩, by simpa using h4, ?_⟩
    rw [h5]
    simp only [Option.isSome_some, true_or, true_iff]
    exact .inr ⟨x, List.mem_cons_self ..⟩

/-- A parameter stands for its variable, unless it is called as a type is: then the type is meant. -/
theorem param_stands (n : Nat) (x : Text) (st : St) :
    (check types m (n + 2) (.closure [.pos (some x)] (.ident x)) st).map (·.1) =
      some (some (.func [.var (st.next + 1) x] [] none ((builtinOf types x).getD (.var (st.next + 1) x)))) := by
  rw [closure_reads]
  simp only [check, checkIdent]
  cases hb : builtinOf types x with
  | some t => rfl
  | none => simp [find]

/-! ## Violations -/

/-- `f` is a function of `a`, and what it returns is called `r`, which is `a`. -/
def leaky : Mod := fun x =>
  if x = ['f'] then some (some (.closure [.pos (some ['a'])] (.ident ['r'])))
  else if x = ['r'] then some (some (.ident ['a']))
  else none

/-- Types depend on the order of parameters: `r` alone means nothing, but after `f` it is the variable of `f`, which is not bound there; and
`f` means nothing after `r`. -/
theorem order_matters :
    (checkVars (fun _ => none) leaky 9 [(['p'], ['f']), (['q'], ['r'])] [] St.init).map (·.1) =
      some [(['p'], .func [.var 1 ['a']] [] none (.var 1 ['a'])), (['q'], .var 1 ['a'])] ∧
    (checkVars (fun _ => none) leaky 9 [(['q'], ['r']), (['p'], ['f'])] [] St.init).map (·.1) = some [(['q'], .any), (['p'], .any)] := ⟨rfl, rfl⟩

/-- A doc comment that calls something by its own name sends the program into endless recursion. -/
theorem own_name (n : Nat) :
    checkVars (fun _ => none) (fun x => if x = ['t'] then some (some (.binary true (.ident ['t']) (.lit ['0']))) else none) n
      [(['p'], ['t'])] [] St.init = none := by
  have h := circular (types := fun _ => none) (m := fun x => if x = ['t'] then some (some (.binary true (.ident ['t']) (.lit ['0']))) else none)
    (fun x => x = ['t']) (by
      rintro x rfl
      refine ⟨?_, _, ['t'], if_pos rfl, .binary _ _ _ _ (.ident _), rfl⟩
      rintro ⟨t, ht⟩
      exact absurd (builtin_iff.mpr ht) (by simp [builtinOf]))
    St.init (fun _ _ => rfl) (fun _ _ => rfl) n (.binary true (.ident ['t']) (.lit ['0'])) ['t'] (.binary _ _ _ _ (.ident _)) rfl
  have hs : (Pages.split ',' ['t']).map Pages.trim = [['t']] := by decide
  simp only [checkVars, checkStrings, hs, checkNames, checkIdent]
  simp only [builtinOf, St.init, find] at h ⊢
  simp [h]

/-! ## Examples -/

example : Listed " int , none".toList ["int".toList, "none".toList] :=
  .more [' '] "int".toList [' '] " none".toList ["none".toList] (by unfold Pages.Blank Pages.Space; decide) (by unfold Pages.Blank Pages.Space; decide)
    (by intro c h; cases h; unfold Pages.Space; decide) (by intro c h; cases h; unfold Pages.Space; decide) (by decide)
    (.one [' '] "none".toList [] (by unfold Pages.Blank Pages.Space; decide) (by unfold Pages.Blank Pages.Space; decide)
      (by intro c h; cases h; unfold Pages.Space; decide) (by intro c h; cases h; unfold Pages.Space; decide) (by decide))

/-- `t` is `array(int) or "x" or s`, and `s` is `tag("y")`. -/
def plainMod : Mod := fun x =>
  if x = ['t'] then some (some (.binary true (.binary true (.call (some "array".toList) (some (.ident "int".toList))) (.str ['x'])) (.ident ['s'])))
  else if x = ['s'] then some (some (.call (some "tag".toList) (some (.str ['y'])))) else none

example : PlainMod plainMod := by
  intro x e h
  unfold plainMod at h
  split at h
  · cases h
    exact .binary _ _ (.binary _ _ (.call _ _ (.ident _)) (.str _)) (.ident _)
  · split at h
    · cases h
      exact .call _ _ (.str _)
    · cases h

example : Ranked plainMod (fun x => if x = ['t'] then 1 else 0) := by
  intro x e h y hy
  unfold plainMod at h
  split at h
  · rename_i hx
    cases h
    simp only [names, List.mem_append, List.mem_singleton, List.not_mem_nil, or_false] at hy
    rcases hy with rfl | rfl <;> simp [hx]
  · split at h
    · cases h
      simp [names] at hy
    · cases h

example : (checkVars (fun x => if x = "int".toList then some x else none) plainMod 9 [(['p'], "t, nope, s".toList)] [] St.init).map (·.1) =
    some [(['p'], .union [.union [.union [.array (.type "int".toList), .value ['x']], .tag ['y']], .tag ['y']])] := rfl

end Tinymist.DocTypes
