import Verif.Props.TyCall

/-!
# Simplifying a type (C119)
-/

namespace Tinymist.Types

open Spec

/-! ## Alternatives of what is put together -/

theorem within_any {v w : Vars} (n : Nat) (t : Ty) : Within v w n .any t := by
  cases n with
  | zero => exact True.intro
  | succ n =>
    refine ⟨fun l hl h => ?_, fun h ts ha => ?_⟩
    · cases h; exact absurd rfl hl
    · cases ha

/-- What a type put together from others has as alternatives. -/
def MadeOf (t : Ty) (ts : List Ty) : Prop :=
  ∀ a, a ≠ .any → (Alt noVars t a ↔ ∃ u, u ∈ ts ∧ Alt noVars u a)

theorem madeOf_union (ts : List Ty) : MadeOf (.node .union ts) ts := by
  intro a _
  constructor
  · intro h
    cases h with
    | node _ _ h1 h2 => exact absurd rfl h1
    | union _ t _ m h => exact ⟨t, m, h⟩
  · rintro ⟨u, m, h⟩; exact .union ts u a m h

theorem madeOf_bounds (n : Nat) (ts : List Ty) : MadeOf (.node (.bounds n) ts) ts := by
  intro a _
  constructor
  · intro h
    cases h with
    | node _ _ h1 h2 => exact absurd rfl (h2 n)
    | bounds _ _ t _ m h => exact ⟨t, m, h⟩
  · rintro ⟨u, m, h⟩; exact .bounds n ts u a m h

theorem madeOf_nil : MadeOf .any [] := by
  intro a ha
  constructor
  · intro h; cases h; exact absurd rfl ha
  · rintro ⟨u, m, _⟩; cases m

theorem madeOf_single (t : Ty) : MadeOf t [t] := by
  intro a _
  constructor
  · intro h; exact ⟨t, List.mem_singleton.mpr rfl, h⟩
  · rintro ⟨u, m, h⟩; rw [List.mem_singleton.mp m] at h; exact h

theorem madeOf_mem {t : Ty} {ts us : List Ty} (h : MadeOf t ts) (hm : ∀ u, u ∈ ts ↔ u ∈ us) : MadeOf t us := by
  intro a ha
  rw [h a ha]
  constructor <;> (rintro ⟨u, m, h⟩; exact ⟨u, by simpa [hm] using m, h⟩)

variable {sort : List Ty → List Ty} (hsort : ∀ l, (sort l).Perm l)

include hsort

theorem madeOf_fromTypes (ts : List Ty) : MadeOf (fromTypes sort ts) ts := by
  unfold fromTypes
  match ts with
  | [] => exact madeOf_nil
  | [t] => exact madeOf_single t
  | t :: u :: ts => exact madeOf_mem (madeOf_union _) fun x => (hsort _).mem_iff

theorem madeOf_filter (ts : List Ty) : MadeOf (fromTypes sort (ts.filter fun t => decide (t ≠ .any))) ts := by
  intro a ha
  rw [madeOf_fromTypes hsort _ a ha]
  constructor
  · rintro ⟨u, m, h⟩; exact ⟨u, (List.mem_filter.mp m).1, h⟩
  · rintro ⟨u, m, h⟩
    refine ⟨u, List.mem_filter.mpr ⟨m, decide_eq_true ?_⟩, h⟩
    rintro rfl
    cases h; exact ha rfl

theorem madeOf_close (lbs ubs : List Ty) : MadeOf (closeBounds sort lbs ubs) (lbs ++ ubs) := by
  have hm : ∀ u, u ∈ lbs.eraseDups ++ ubs.eraseDups ↔ u ∈ lbs ++ ubs := by simp
  refine madeOf_mem ?_ hm
  unfold closeBounds
  generalize lbs.eraseDups = l
  generalize ubs.eraseDups = u
  match l, u with
  | [], [] => exact madeOf_nil
  | [t], [] => exact madeOf_single t
  | [], [t] => exact madeOf_single t
  | a :: b :: l, u => exact madeOf_mem (madeOf_bounds _ _) fun x => by simp [(hsort _).mem_iff, or_assoc]
  | [a], b :: u => exact madeOf_mem (madeOf_bounds _ _) fun x => by simp [(hsort _).mem_iff]
  | [], a :: b :: u => exact madeOf_mem (madeOf_bounds _ _) fun x => by simp [(hsort _).mem_iff]

omit hsort

/-! ## Variables in what is put together -/

theorem occurs_node {d : Nat} {h : Head} {ts : List Ty} : Occurs d (.node h ts) ↔ ∃ t, t ∈ ts ∧ Occurs d t := by
  constructor
  · intro o; cases o with | node _ _ t m o => exact ⟨t, m, o⟩
  · rintro ⟨t, m, o⟩; exact .node h ts t m o

include hsort

theorem occurs_fromTypes {d : Nat} {ts : List Ty} (h : Occurs d (fromTypes sort ts)) : ∃ t, t ∈ ts ∧ Occurs d t := by
  match ts, h with
  | [], h => cases h
  | [t], h => exact ⟨t, List.mem_singleton.mpr rfl, h⟩
  | t :: u :: ts, h =>
    obtain ⟨x, m, o⟩ := occurs_node.mp h
    exact ⟨x, (hsort _).mem_iff.mp m, o⟩

theorem occurs_close {d : Nat} {lbs ubs : List Ty} (h : Occurs d (closeBounds sort lbs ubs)) : ∃ t, t ∈ lbs ++ ubs ∧ Occurs d t := by
  have hm : ∀ u, u ∈ lbs.eraseDups ++ ubs.eraseDups → u ∈ lbs ++ ubs := by simp
  suffices ∃ t, t ∈ lbs.eraseDups ++ ubs.eraseDups ∧ Occurs d t by
    obtain ⟨t, m, o⟩ := this; exact ⟨t, hm t m, o⟩
  unfold closeBounds at h
  revert h
  generalize lbs.eraseDups = l
  generalize ubs.eraseDups = u
  intro h
  match l, u, h with
  | [], [], h => cases h
  | [t], [], h => exact ⟨t, by simp, h⟩
  | [], [t], h => exact ⟨t, by simp, h⟩
  | a :: b :: l, u, h =>
    obtain ⟨x, m, o⟩ := occurs_node.mp h
    exact ⟨x, by simpa [(hsort _).mem_iff, or_assoc] using m, o⟩
  | [a], b :: u, h =>
    obtain ⟨x, m, o⟩ := occurs_node.mp h
    exact ⟨x, by simpa [(hsort _).mem_iff] using m, o⟩
  | [], a :: b :: u, h =>
    obtain ⟨x, m, o⟩ := occurs_node.mp h
    exact ⟨x, by simpa [(hsort _).mem_iff] using m, o⟩

omit hsort

/-! ## Runs -/

/-- What is made of the simplified children of a node. -/
def rebuild (sort : List Ty → List Ty) (h : Head) (ts : List Ty) : Ty :=
  match h with
  | .union => fromTypes sort (ts.filter fun t => decide (t ≠ .any))
  | .bounds n => closeBounds sort (ts.take n) (ts.drop n)
  | h => .node h ts

/-- Simplifying a list of types. -/
inductive Run (sort : List Ty → List Ty) (vars : Vars) : List Ty → Cache → List Ty → Cache → Prop where
  | nil (c : Cache) : Run sort vars [] c [] c
  | leaf (l : Leaf) (ts : List Ty) (c : Cache) (ts' : List Ty) (c' : Cache) : Run sort vars ts c ts' c' →
      Run sort vars (.leaf l :: ts) c (.leaf l :: ts') c'
  | hit (d : Nat) (t : Ty) (ts : List Ty) (c : Cache) (ts' : List Ty) (c' : Cache) : c.lookup d = some t → Run sort vars ts c ts' c' →
      Run sort vars (.var d :: ts) c (t :: ts') c'
  | var (d : Nat) (lbs ubs lbs' ubs' ts : List Ty) (c c1 c2 : Cache) (ts' : List Ty) (c' : Cache) : c.lookup d = none →
      vars d = some (lbs, ubs) → Run sort vars lbs ((d, .any) :: c) lbs' c1 → Run sort vars ubs c1 ubs' c2 →
      Run sort vars ts ((d, closeBounds sort lbs' ubs') :: c2) ts' c' → Run sort vars (.var d :: ts) c (closeBounds sort lbs' ubs' :: ts') c'
  | node (h : Head) (us us' ts : List Ty) (c c1 : Cache) (ts' : List Ty) (c' : Cache) : Run sort vars us c us' c1 →
      Run sort vars ts c1 ts' c' → Run sort vars (.node h us :: ts) c (rebuild sort h us' :: ts') c'

theorem transform_run (sort : List Ty → List Ty) (vars : Vars) : ∀ fuel,
    (∀ t c t' c1, transform sort vars fuel t c = some (t', c1) → ∀ ts ts' c', Run sort vars ts c1 ts' c' → Run sort vars (t :: ts) c (t' :: ts') c') ∧
    ∀ ts c ts' c', transformSeq sort vars fuel ts c = some (ts', c') → Run sort vars ts c ts' c'
  | 0 => ⟨fun t c t' c1 h => (by rw [transform] at h; cases h), fun ts c ts' c' h => (by rw [transformSeq] at h; cases h)⟩
  | fuel + 1 => by
    obtain ⟨ih1, ih2⟩ := transform_run sort vars fuel
    constructor
    · intro t c t' c1 h ts ts' c' hr
      cases t with
      | leaf l => rw [transform] at h; cases h; exact .leaf l ts c ts' c' hr
      | var d =>
        rw [transform] at h
        cases hl : c.lookup d with
        | some u => rw [hl] at h; cases h; exact .hit d _ ts _ ts' c' hl hr
        | none =>
          rw [hl] at h
          cases hv : vars d with
          | none => rw [hv] at h; cases h
          | some b =>
            obtain ⟨lbs, ubs⟩ := b
            rw [hv] at h
            simp only at h
            cases h1 : transformSeq sort vars fuel lbs ((d, .any) :: c) with
            | none => rw [h1] at h; cases h
            | some r1 =>
              obtain ⟨lbs', cc1⟩ := r1
              rw [h1] at h
              simp only at h
              cases h2 : transformSeq sort vars fuel ubs cc1 with
              | none => rw [h2] at h; cases h
              | some r2 =>
                obtain ⟨ubs', cc2⟩ := r2
                rw [h2] at h
                simp only at h
                cases h
                exact .var d lbs ubs lbs' ubs' ts c cc1 cc2 ts' c' hl hv (ih2 _ _ _ _ h1) (ih2 _ _ _ _ h2) hr
      | node g us =>
        rw [transform] at h
        cases h1 : transformSeq sort vars fuel us c with
        | none => rw [h1] at h; cases h
        | some r1 =>
          obtain ⟨us', cc⟩ := r1
          rw [h1] at h
          simp only at h
          have he : t' = rebuild sort g us' ∧ c1 = cc := by cases g <;> (simp only [Option.some.injEq, Prod.mk.injEq] at h; exact ⟨h.1.symm, h.2.symm⟩)
          obtain ⟨rfl, rfl⟩ := he
          exact .node g us us' ts c _ ts' c' (ih2 _ _ _ _ h1) hr
    · intro ts c ts' c' h
      cases ts with
      | nil => rw [transformSeq] at h; cases h; exact .nil _
      | cons t ts =>
        rw [transformSeq] at h
        cases h1 : transform sort vars fuel t c with
        | none => rw [h1] at h; cases h
        | some r1 =>
          obtain ⟨t1, cc1⟩ := r1
          rw [h1] at h
          simp only at h
          cases h2 : transformSeq sort vars fuel ts cc1 with
          | none => rw [h2] at h; cases h
          | some r2 =>
            obtain ⟨ts1, cc2⟩ := r2
            rw [h2] at h
            simp only at h
            cases h
            exact ih1 _ _ _ _ h1 _ _ _ (ih2 _ _ _ _ h2)

theorem simplify_run {sort : List Ty → List Ty} {vars : Vars} {fuel : Nat} {t r : Ty} (h : simplify sort vars fuel t = some r) :
    ∃ c, Run sort vars [t] [] [r] c := by
  unfold simplify at h
  obtain ⟨⟨r', c⟩, h1, h2⟩ := Option.map_eq_some_iff.mp h
  cases h2
  exact ⟨c, (transform_run sort vars fuel).1 _ _ _ _ h1 [] [] c (.nil c)⟩

/-! ## The alternatives of a type that is put together again -/

theorem pointwise_cons {R : Ty → Ty → Prop} {a b : Ty} {as bs : List Ty} (h : R a b) (hs : Pointwise R as bs) :
    Pointwise R (a :: as) (b :: bs) := by
  refine ⟨by simp [hs.1], fun i x y hx hy => ?_⟩
  cases i with
  | zero => cases hx; cases hy; exact h
  | succ i => exact hs.2 i x y hx hy

theorem pointwise_left {R : Ty → Ty → Prop} {as bs : List Ty} (h : Pointwise R as bs) {a : Ty} (ha : a ∈ as) : ∃ b, b ∈ bs ∧ R a b := by
  obtain ⟨i, hi⟩ := List.mem_iff_getElem?.mp ha
  have hlt : i < bs.length := by rw [← h.1]; exact (List.getElem?_eq_some_iff.mp hi).1
  exact ⟨bs[i], List.getElem_mem hlt, h.2 i a _ hi (List.getElem?_eq_getElem hlt)⟩

theorem pointwise_right {R : Ty → Ty → Prop} {as bs : List Ty} (h : Pointwise R as bs) {b : Ty} (hb : b ∈ bs) : ∃ a, a ∈ as ∧ R a b := by
  obtain ⟨i, hi⟩ := List.mem_iff_getElem?.mp hb
  have hlt : i < as.length := by rw [h.1]; exact (List.getElem?_eq_some_iff.mp hi).1
  exact ⟨as[i], List.getElem_mem hlt, h.2 i _ b (List.getElem?_eq_getElem hlt) hi⟩

theorem pointwise_append {R : Ty → Ty → Prop} {as bs cs ds : List Ty} (h1 : Pointwise R as bs) (h2 : Pointwise R cs ds) :
    Pointwise R (as ++ cs) (bs ++ ds) := by
  refine ⟨by rw [List.length_append, List.length_append, h1.1, h2.1], fun i a b ha hb => ?_⟩
  by_cases hi : i < as.length
  · rw [List.getElem?_append_left hi] at ha
    rw [List.getElem?_append_left (h1.1 ▸ hi)] at hb
    exact h1.2 i a b ha hb
  · rw [List.getElem?_append_right (by omega)] at ha
    rw [List.getElem?_append_right (by rw [← h1.1]; omega), ← h1.1] at hb
    exact h2.2 _ a b ha hb

/-- All alternatives, at any depth. -/
def Always (v w : Vars) (t u : Ty) : Prop := ∀ n, Within v w n t u

theorem pointwise_within {v w : Vars} {ts us : List Ty} (h : Pointwise (Always v w) ts us) (n : Nat) : Pointwise (Within v w n) ts us :=
  ⟨h.1, fun i a b ha hb => h.2 i a b ha hb n⟩

/-- If each alternative of `t` is one of the types in `ts`, and these have only those of `u`. -/
theorem always_of {v w : Vars} {t u : Ty} (h : ∀ a, a ≠ .any → Alt v t a → ∃ x y, Alt v x a ∧ Always v w x y ∧
    ∀ b, b ≠ .any → Alt w y b → Alt w u b) : Always v w t u := by
  intro n
  cases n with
  | zero => exact True.intro
  | succ n =>
    refine ⟨fun l hl ha => ?_, fun g ts ha => ?_⟩
    · obtain ⟨x, y, h1, h2, h3⟩ := h _ (by intro e; cases e; exact hl rfl) ha
      exact h3 _ (by intro e; cases e; exact hl rfl) ((h2 1).1 l hl h1)
    · obtain ⟨x, y, h1, h2, h3⟩ := h _ (by intro e; cases e) ha
      obtain ⟨us, h4, h5⟩ := (h2 (n + 1)).2 g ts h1
      exact ⟨us, h3 _ (by intro e; cases e) h4, h5⟩

theorem always_refl_leaf {v w : Vars} (l : Leaf) : Always v w (.leaf l) (.leaf l) := by
  intro n
  cases n with
  | zero => exact True.intro
  | succ n =>
    refine ⟨fun m hm ha => ?_, fun g ts ha => ?_⟩
    · cases ha; exact .leaf l
    · cases ha

theorem always_node {v w : Vars} {h : Head} (hu : h ≠ .union) (hb : ∀ n, h ≠ .bounds n) {ts us : List Ty}
    (hp : Pointwise (Always v w) ts us) : Always v w (.node h ts) (.node h us) := by
  intro n
  cases n with
  | zero => exact True.intro
  | succ n =>
    refine ⟨fun m hm ha => ?_, fun g xs ha => ?_⟩
    · cases ha with
      | union => exact absurd rfl hu
      | bounds => exact absurd rfl (hb _)
    · cases ha with
      | node => exact ⟨us, .node h us hu hb, pointwise_within hp n⟩
      | union => exact absurd rfl hu
      | bounds => exact absurd rfl (hb _)

include hsort

theorem rebuild_within {v : Vars} {h : Head} {ts us : List Ty} (hp : Pointwise (Always noVars v) us ts) :
    Always noVars v (rebuild sort h us) (.node h ts) := by
  have hrest : h ≠ .union → (∀ n, h ≠ .bounds n) → Always noVars v (.node h us) (.node h ts) := fun h1 h2 => always_node h1 h2 hp
  cases h with
  | union =>
    refine always_of fun a ha h => ?_
    obtain ⟨x, m, hx⟩ := (madeOf_filter hsort us a ha).mp h
    obtain ⟨y, m', hy⟩ := pointwise_left hp m
    exact ⟨x, y, hx, hy, fun b _ hb => .union ts y b m' hb⟩
  | bounds n =>
    refine always_of fun a ha h => ?_
    obtain ⟨x, m, hx⟩ := (madeOf_close hsort (us.take n) (us.drop n) a ha).mp h
    rw [List.take_append_drop] at m
    obtain ⟨y, m', hy⟩ := pointwise_left hp m
    exact ⟨x, y, hx, hy, fun b _ hb => .bounds n ts y b m' hb⟩
  | _ => exact hrest (by simp) (by simp)

theorem within_rebuild {v : Vars} {h : Head} {ts us : List Ty} (hp : Pointwise (Always v noVars) ts us) :
    Always v noVars (.node h ts) (rebuild sort h us) := by
  have hrest : h ≠ .union → (∀ n, h ≠ .bounds n) → Always v noVars (.node h ts) (.node h us) := fun h1 h2 => always_node h1 h2 hp
  cases h with
  | union =>
    refine always_of fun a ha h => ?_
    cases h with
    | node _ _ h1 => exact absurd rfl h1
    | union _ x _ m hx =>
      obtain ⟨y, m', hy⟩ := pointwise_left hp m
      exact ⟨x, y, hx, hy, fun b hb h => (madeOf_filter hsort us b hb).mpr ⟨y, m', h⟩⟩
  | bounds n =>
    refine always_of fun a ha h => ?_
    cases h with
    | node _ _ _ h1 => exact absurd rfl (h1 n)
    | bounds _ _ x _ m hx =>
      obtain ⟨y, m', hy⟩ := pointwise_left hp m
      exact ⟨x, y, hx, hy, fun b hb h => (madeOf_close hsort (us.take n) (us.drop n) b hb).mpr ⟨y, by rw [List.take_append_drop]; exact m', h⟩⟩
  | _ => exact hrest (by simp) (by simp)

/-! ## Nothing is made up -/

theorem run_within {vars : Vars} {ts : List Ty} {c : Cache} {ts' : List Ty} {c' : Cache} (hr : Run sort vars ts c ts' c')
    (hc : ∀ d t, c.lookup d = some t → Always noVars vars t (.var d)) :
    Pointwise (Always noVars vars) ts' ts ∧ ∀ d t, c'.lookup d = some t → Always noVars vars t (.var d) := by
  induction hr with
  | nil c => exact ⟨⟨rfl, fun i a b h => by cases i <;> cases h⟩, hc⟩
  | leaf l ts c ts' c' _ ih =>
    obtain ⟨h1, h2⟩ := ih hc
    exact ⟨pointwise_cons (always_refl_leaf l) h1, h2⟩
  | hit d t ts c ts' c' hl _ ih =>
    obtain ⟨h1, h2⟩ := ih hc
    exact ⟨pointwise_cons (hc d t hl) h1, h2⟩
  | var d lbs ubs lbs' ubs' ts c c1 c2 ts' c' hl hv _ _ _ ih1 ih2 ih3 =>
    obtain ⟨l1, l2⟩ := ih1 (by
      intro e t h
      rw [List.lookup_cons] at h
      split at h
      · cases h; exact fun n => within_any n _
      · exact hc e t h)
    obtain ⟨u1, u2⟩ := ih2 l2
    have hd : Always noVars vars (closeBounds sort lbs' ubs') (.var d) := by
      refine always_of fun a ha h => ?_
      obtain ⟨x, m, hx⟩ := (madeOf_close hsort lbs' ubs' a ha).mp h
      obtain ⟨y, m', hy⟩ := pointwise_left (pointwise_append l1 u1) m
      exact ⟨x, y, hx, hy, fun b _ hb => .var d lbs ubs y b hv m' hb⟩
    obtain ⟨t1, t2⟩ := ih3 (by
      intro e t h
      rw [List.lookup_cons] at h
      by_cases he : (e == d) = true
      · rw [he] at h
        have he' : e = d := by simpa using he
        cases h; rw [he']; exact hd
      · rw [Bool.not_eq_true] at he
        rw [he] at h
        exact u2 e t h)
    exact ⟨pointwise_cons hd t1, t2⟩
  | node g us us' ts c c1 ts' c' _ _ ih1 ih2 =>
    obtain ⟨h1, h2⟩ := ih1 hc
    obtain ⟨h3, h4⟩ := ih2 h2
    exact ⟨pointwise_cons (rebuild_within hsort h1) h3, h4⟩

/-- C119: a simplified type has no alternatives that the type does not have, and neither have the types in it. -/
theorem nothing_made_up {vars : Vars} {fuel : Nat} {t r : Ty} (h : simplify sort vars fuel t = some r) (depth : Nat) :
    Within noVars vars depth r t := by
  obtain ⟨c, hr⟩ := simplify_run h
  have := (run_within hsort hr (by intro d t h; cases h)).1
  exact this.2 0 r t rfl rfl depth

/-! ## No variables are left -/

theorem occurs_rebuild {d : Nat} {h : Head} {ts : List Ty} (ho : Occurs d (rebuild sort h ts)) : ∃ t, t ∈ ts ∧ Occurs d t := by
  cases h with
  | union =>
    obtain ⟨t, m, o⟩ := occurs_fromTypes hsort ho
    exact ⟨t, (List.mem_filter.mp m).1, o⟩
  | bounds n =>
    obtain ⟨t, m, o⟩ := occurs_close hsort ho
    rw [List.take_append_drop] at m
    exact ⟨t, m, o⟩
  | _ => exact occurs_node.mp ho

theorem run_closed {vars : Vars} {ts : List Ty} {c : Cache} {ts' : List Ty} {c' : Cache} (hr : Run sort vars ts c ts' c')
    (hc : ∀ d t, c.lookup d = some t → ∀ e, ¬ Occurs e t) :
    (∀ t, t ∈ ts' → ∀ e, ¬ Occurs e t) ∧ ∀ d t, c'.lookup d = some t → ∀ e, ¬ Occurs e t := by
  induction hr with
  | nil c => exact ⟨fun t m => (by cases m), hc⟩
  | leaf l ts c ts' c' _ ih =>
    obtain ⟨h1, h2⟩ := ih hc
    refine ⟨fun t m => ?_, h2⟩
    rcases List.mem_cons.mp m with rfl | m
    · intro e o; cases o
    · exact h1 t m
  | hit d t ts c ts' c' hl _ ih =>
    obtain ⟨h1, h2⟩ := ih hc
    refine ⟨fun u m => ?_, h2⟩
    rcases List.mem_cons.mp m with rfl | m
    · exact hc d _ hl
    · exact h1 u m
  | var d lbs ubs lbs' ubs' ts c c1 c2 ts' c' hl hv _ _ _ ih1 ih2 ih3 =>
    obtain ⟨l1, l2⟩ := ih1 (by
      intro e t h
      rw [List.lookup_cons] at h
      split at h
      · cases h; intro e o; cases o
      · exact hc e t h)
    obtain ⟨u1, u2⟩ := ih2 l2
    have hd : ∀ e, ¬ Occurs e (closeBounds sort lbs' ubs') := by
      intro e o
      obtain ⟨x, m, ox⟩ := occurs_close hsort o
      rcases List.mem_append.mp m with m | m
      · exact l1 x m e ox
      · exact u1 x m e ox
    obtain ⟨t1, t2⟩ := ih3 (by
      intro e t h
      rw [List.lookup_cons] at h
      split at h
      · cases h; exact hd
      · exact u2 e t h)
    refine ⟨fun u m => ?_, t2⟩
    rcases List.mem_cons.mp m with rfl | m
    · exact hd
    · exact t1 u m
  | node g us us' ts c c1 ts' c' _ _ ih1 ih2 =>
    obtain ⟨h1, h2⟩ := ih1 hc
    obtain ⟨h3, h4⟩ := ih2 h2
    refine ⟨fun u m => ?_, h4⟩
    rcases List.mem_cons.mp m with rfl | m
    · intro e o
      obtain ⟨x, mx, ox⟩ := occurs_rebuild hsort o
      exact h1 x mx e ox
    · exact h3 u m

/-- C119: no variable is left in a simplified type. -/
theorem no_variables {vars : Vars} {fuel : Nat} {t r : Ty} (h : simplify sort vars fuel t = some r) (d : Nat) : ¬ Occurs d r := by
  obtain ⟨c, hr⟩ := simplify_run h
  exact (run_closed hsort hr (by intro d t h; cases h)).1 r (List.mem_singleton.mpr rfl) d

/-! ## Nothing is lost -/

theorem run_keeps {vars : Vars} {rank : Nat → Nat}
    (hrank : ∀ d lbs ubs, vars d = some (lbs, ubs) → ∀ t, t ∈ lbs ++ ubs → ∀ e, Occurs e t → rank e < rank d)
    {ts : List Ty} {c : Cache} {ts' : List Ty} {c' : Cache} (hr : Run sort vars ts c ts' c') :
    ∀ k, (∀ t, t ∈ ts → ∀ e, Occurs e t → rank e < k) →
      (∀ d t, rank d < k → c.lookup d = some t → Always vars noVars (.var d) t) →
      Pointwise (Always vars noVars) ts ts' ∧ (∀ d t, rank d < k → c'.lookup d = some t → Always vars noVars (.var d) t) ∧
        ∀ d, k ≤ rank d → c'.lookup d = c.lookup d := by
  induction hr with
  | nil c => exact fun k _ hc => ⟨⟨rfl, fun i a b h => by cases i <;> cases h⟩, hc, fun _ _ => rfl⟩
  | leaf l ts c ts' c' _ ih =>
    intro k hk hc
    obtain ⟨h1, h2, h3⟩ := ih k (fun t m => hk t (List.mem_cons_of_mem _ m)) hc
    exact ⟨pointwise_cons (always_refl_leaf l) h1, h2, h3⟩
  | hit d t ts c ts' c' hl _ ih =>
    intro k hk hc
    obtain ⟨h1, h2, h3⟩ := ih k (fun t m => hk t (List.mem_cons_of_mem _ m)) hc
    exact ⟨pointwise_cons (hc d t (hk _ List.mem_cons_self d .var) hl) h1, h2, h3⟩
  | var d lbs ubs lbs' ubs' ts c c1 c2 ts' c' hl hv _ _ _ ih1 ih2 ih3 =>
    intro k hk hc
    have hdk := hk _ List.mem_cons_self d .var
    have hlook : ∀ (e : Nat) (x : Ty) (cc : Cache), e ≠ d → List.lookup e ((d, x) :: cc) = cc.lookup e := by
      intro e x cc he
      have : (e == d) = false := by simpa using he
      rw [List.lookup_cons, this]
    have hself : ∀ (x : Ty) (cc : Cache), List.lookup d ((d, x) :: cc) = some x := by
      intro x cc
      have : (d == d) = true := by simp
      rw [List.lookup_cons, this]
    obtain ⟨l1, l2, l3⟩ := ih1 (rank d) (fun t m => hrank d lbs ubs hv t (List.mem_append_left _ m)) (by
      intro e t he h
      have hne : e ≠ d := by rintro rfl; omega
      rw [hlook _ _ _ hne] at h
      exact hc e t (by omega) h)
    obtain ⟨u1, u2, u3⟩ := ih2 (rank d) (fun t m => hrank d lbs ubs hv t (List.mem_append_right _ m)) l2
    have hd : Always vars noVars (.var d) (closeBounds sort lbs' ubs') := by
      refine always_of fun a ha h => ?_
      cases h with
      | var _ lbs2 ubs2 x _ hv2 m hx =>
        rw [hv] at hv2
        cases hv2
        obtain ⟨y, m', hy⟩ := pointwise_left (pointwise_append l1 u1) m
        exact ⟨x, y, hx, hy, fun b hb h => (madeOf_close hsort lbs' ubs' b hb).mpr ⟨y, m', h⟩⟩
    obtain ⟨t1, t2, t3⟩ := ih3 k (fun t m => hk t (List.mem_cons_of_mem _ m)) (by
      intro e t he h
      by_cases hed : e = d
      · subst hed
        rw [hself] at h
        cases h; exact hd
      · rw [hlook _ _ _ hed] at h
        by_cases hlt : rank e < rank d
        · exact u2 e t hlt h
        · rw [u3 e (by omega), l3 e (by omega), hlook _ _ _ hed] at h
          exact hc e t he h)
    refine ⟨pointwise_cons hd t1, t2, fun e he => ?_⟩
    have hne : e ≠ d := by rintro rfl; omega
    rw [t3 e he, hlook _ _ _ hne, u3 e (by omega), l3 e (by omega), hlook _ _ _ hne]
  | node g us us' ts c c1 ts' c' _ _ ih1 ih2 =>
    intro k hk hc
    obtain ⟨h1, h2, h3⟩ := ih1 k (fun t m e o => hk _ List.mem_cons_self e (.node g us t m o)) hc
    obtain ⟨h4, h5, h6⟩ := ih2 k (fun t m => hk t (List.mem_cons_of_mem _ m)) h2
    exact ⟨pointwise_cons (within_rebuild hsort h1) h4, h5, fun d hd => (h6 d hd).trans (h3 d hd)⟩

omit hsort in
theorem occurs_bounded (rank : Nat → Nat) (t : Ty) : ∃ k, ∀ e, Occurs e t → rank e < k := by
  induction t using Ty.rec (motive_2 := fun ts => ∃ k, ∀ t, t ∈ ts → ∀ e, Occurs e t → rank e < k) with
  | leaf l => exact ⟨0, fun e o => by cases o⟩
  | var d => exact ⟨rank d + 1, fun e o => by cases o; omega⟩
  | node g ts ih =>
    obtain ⟨k, hk⟩ := ih
    exact ⟨k, fun e o => by obtain ⟨t, m, o⟩ := occurs_node.mp o; exact hk t m e o⟩
  | nil => exact ⟨0, fun t m => by cases m⟩
  | cons t ts ih1 ih2 =>
    obtain ⟨k, hk⟩ := ih1
    obtain ⟨m, hm⟩ := ih2
    refine ⟨max k m, fun u hu e o => ?_⟩
    rcases List.mem_cons.mp hu with rfl | hu
    · have := hk e o; omega
    · have := hm u hu e o; omega

/-- C119: a simplified type has every alternative of the type, and so have the types in it, unless a variable has itself in its bounds. -/
theorem nothing_lost_partial {vars : Vars} (ha : Acyclic vars) {fuel : Nat} {t r : Ty} (h : simplify sort vars fuel t = some r)
    (depth : Nat) : Within vars noVars depth t r := by
  obtain ⟨rank, hrank⟩ := ha
  obtain ⟨c, hr⟩ := simplify_run h
  obtain ⟨k, hk⟩ := occurs_bounded rank t
  have := (run_keeps hsort hrank hr k (fun u m => by rw [List.mem_singleton.mp m]; exact hk) (by intro d t _ h; cases h)).1
  exact this.2 0 t r rfl rfl depth

omit hsort

/-! ## It comes to an end -/

theorem transform_more (sort : List Ty → List Ty) (vars : Vars) : ∀ fuel,
    (∀ t c r, transform sort vars fuel t c = some r → transform sort vars (fuel + 1) t c = some r) ∧
    ∀ ts c r, transformSeq sort vars fuel ts c = some r → transformSeq sort vars (fuel + 1) ts c = some r
  | 0 => ⟨fun t c r h => (by rw [transform] at h; cases h), fun ts c r h => (by rw [transformSeq] at h; cases h)⟩
  | fuel + 1 => by
    obtain ⟨ih1, ih2⟩ := transform_more sort vars fuel
    constructor
    · intro t c r h
      cases t with
      | leaf l => rw [transform] at h ⊢; exact h
      | var d =>
        rw [transform] at h ⊢
        cases hl : c.lookup d with
        | some u => rw [hl] at h; exact h
        | none =>
          rw [hl] at h
          cases hv : vars d with
          | none => rw [hv] at h; cases h
          | some b =>
            obtain ⟨lbs, ubs⟩ := b
            rw [hv] at h
            simp only at h ⊢
            cases h1 : transformSeq sort vars fuel lbs ((d, .any) :: c) with
            | none => rw [h1] at h; cases h
            | some r1 =>
              rw [h1] at h
              rw [ih2 _ _ _ h1]
              simp only at h ⊢
              cases h2 : transformSeq sort vars fuel ubs r1.2 with
              | none => rw [h2] at h; cases h
              | some r2 => rw [h2] at h; rw [ih2 _ _ _ h2]; exact h
      | node g us =>
        rw [transform] at h ⊢
        cases h1 : transformSeq sort vars fuel us c with
        | none => rw [h1] at h; cases h
        | some r1 => rw [h1] at h; rw [ih2 _ _ _ h1]; exact h
    · intro ts c r h
      cases ts with
      | nil => rw [transformSeq] at h ⊢; exact h
      | cons t ts =>
        rw [transformSeq] at h ⊢
        cases h1 : transform sort vars fuel t c with
        | none => rw [h1] at h; cases h
        | some r1 =>
          rw [h1] at h
          rw [ih1 _ _ _ h1]
          simp only at h ⊢
          cases h2 : transformSeq sort vars fuel ts r1.2 with
          | none => rw [h2] at h; cases h
          | some r2 => rw [h2] at h; rw [ih2 _ _ _ h2]; exact h

theorem transform_mono (sort : List Ty → List Ty) (vars : Vars) {a b : Nat} (h : a ≤ b) :
    (∀ t c r, transform sort vars a t c = some r → transform sort vars b t c = some r) ∧
    ∀ ts c r, transformSeq sort vars a ts c = some r → transformSeq sort vars b ts c = some r := by
  induction h with
  | refl => exact ⟨fun _ _ _ h => h, fun _ _ _ h => h⟩
  | step _ ih => exact ⟨fun t c r h => (transform_more sort vars _).1 t c r (ih.1 t c r h), fun ts c r h => (transform_more sort vars _).2 ts c r (ih.2 ts c r h)⟩

/-- How many of the variables have no result yet. -/
def missing (s : List Nat) (c : Cache) : Nat := s.countP fun d => (c.lookup d).isNone

theorem lookup_new (d e : Nat) (x : Ty) (c : Cache) : (List.lookup e ((d, x) :: c)).isNone = (decide (e ≠ d) && (c.lookup e).isNone) := by
  rw [List.lookup_cons]
  by_cases h : e = d
  · subst h; simp
  · have : (e == d) = false := by simpa using h
    rw [this]; simp [h]

theorem missing_le (s : List Nat) (c c' : Cache) (h : ∀ d, (c.lookup d).isSome → (c'.lookup d).isSome) : missing s c' ≤ missing s c := by
  unfold missing
  refine List.countP_mono_left fun d _ hd => ?_
  cases hc : c.lookup d with
  | none => rfl
  | some t =>
    have := h d (by rw [hc]; rfl)
    cases hc' : c'.lookup d with
    | none => rw [hc'] at this; cases this
    | some u => rw [hc'] at hd; cases hd

theorem missing_lt (s : List Nat) (c : Cache) (d : Nat) (x : Ty) (hs : d ∈ s) (hc : c.lookup d = none) :
    missing s ((d, x) :: c) < missing s c := by
  unfold missing
  induction s with
  | nil => cases hs
  | cons e s ih =>
    have hle : s.countP (fun e => (List.lookup e ((d, x) :: c)).isNone) ≤ s.countP fun e => (c.lookup e).isNone :=
      List.countP_mono_left fun e _ he => by rw [lookup_new] at he; simp at he; simpa using he.2
    rw [List.countP_cons, List.countP_cons, lookup_new]
    by_cases h : e = d
    · subst h
      simp [hc]
      omega
    · rcases List.mem_cons.mp hs with rfl | hs
      · exact absurd rfl h
      · have := ih hs
        have e1 : (decide (e ≠ d) && (c.lookup e).isNone) = (c.lookup e).isNone := by simp [h]
        rw [e1]
        omega

theorem terminates_aux (sort : List Ty → List Ty) (vars : Vars) (s : List Nat) (hs : Closed vars s) : ∀ m : Nat,
    (∀ t c, (∀ e, Occurs e t → e ∈ s) → missing s c ≤ m → ∃ fuel r c', transform sort vars fuel t c = some (r, c') ∧
      ∀ d, (c.lookup d).isSome → (c'.lookup d).isSome) ∧
    ∀ ts c, (∀ t, t ∈ ts → ∀ e, Occurs e t → e ∈ s) → missing s c ≤ m → ∃ fuel r c', transformSeq sort vars fuel ts c = some (r, c') ∧
      ∀ d, (c.lookup d).isSome → (c'.lookup d).isSome := by
  intro m
  induction m using Nat.strongRecOn with
  | ind m ihm =>
    have hone : ∀ t c, (∀ e, Occurs e t → e ∈ s) → missing s c ≤ m → ∃ fuel r c', transform sort vars fuel t c = some (r, c') ∧
        ∀ d, (c.lookup d).isSome → (c'.lookup d).isSome := by
      intro t
      induction t using Ty.rec (motive_2 := fun ts => ∀ c, (∀ t, t ∈ ts → ∀ e, Occurs e t → e ∈ s) → missing s c ≤ m →
        ∃ fuel r c', transformSeq sort vars fuel ts c = some (r, c') ∧ ∀ d, (c.lookup d).isSome → (c'.lookup d).isSome) with
      | leaf l => exact fun c _ _ => ⟨1, .leaf l, c, by rw [transform], fun _ h => h⟩
      | var d =>
        intro c ho hm
        have hd : d ∈ s := ho d .var
        cases hl : c.lookup d with
        | some u => exact ⟨1, u, c, by rw [transform, hl], fun _ h => h⟩
        | none =>
          obtain ⟨lbs, ubs, hv, hb⟩ := hs d hd
          have hlt := missing_lt s c d .any hd hl
          obtain ⟨f1, r1, c1, h1, k1⟩ := (ihm (missing s ((d, .any) :: c)) (by omega)).2 lbs ((d, .any) :: c)
            (fun t mt => hb t (List.mem_append_left _ mt)) (Nat.le_refl _)
          have hle := missing_le s _ _ k1
          obtain ⟨f2, r2, c2, h2, k2⟩ := (ihm (missing s ((d, .any) :: c)) (by omega)).2 ubs c1
            (fun t mt => hb t (List.mem_append_right _ mt)) hle
          refine ⟨max f1 f2 + 1, closeBounds sort r1 r2, (d, closeBounds sort r1 r2) :: c2, ?_, ?_⟩
          · rw [transform, hl, hv]
            simp only
            rw [(transform_mono sort vars (Nat.le_max_left f1 f2)).2 _ _ _ h1]
            simp only
            rw [(transform_mono sort vars (Nat.le_max_right f1 f2)).2 _ _ _ h2]
          · intro e he
            rw [List.lookup_cons]
            split
            · rfl
            · refine k2 e (k1 e ?_)
              rw [List.lookup_cons]
              split
              · rfl
              · exact he
      | node g us ih =>
        intro c ho hm
        obtain ⟨f, r, c', h, k⟩ := ih c (fun t mt e o => ho e (.node g us t mt o)) hm
        cases g <;> exact ⟨f + 1, _, c', by rw [transform, h], k⟩
      | nil => exact ⟨1, [], _, by rw [transformSeq], fun _ h => h⟩
      | cons t ts ih1 ih2 =>
        rename_i c ho hm
        obtain ⟨f1, r1, c1, h1, k1⟩ := ih1 c (ho t List.mem_cons_self) hm
        obtain ⟨f2, r2, c2, h2, k2⟩ := ih2 c1 (fun u mu => ho u (List.mem_cons_of_mem _ mu)) (Nat.le_trans (missing_le s _ _ k1) hm)
        refine ⟨max f1 f2 + 1, r1 :: r2, c2, ?_, fun d hd => k2 d (k1 d hd)⟩
        rw [transformSeq, (transform_mono sort vars (Nat.le_max_left f1 f2)).1 _ _ _ h1]
        simp only
        rw [(transform_mono sort vars (Nat.le_max_right f1 f2)).2 _ _ _ h2]
    refine ⟨hone, fun ts => ?_⟩
    induction ts with
    | nil => exact fun c _ _ => ⟨1, [], c, by rw [transformSeq], fun _ h => h⟩
    | cons t ts ih =>
      intro c ho hm
      obtain ⟨f1, r1, c1, h1, k1⟩ := hone t c (ho t List.mem_cons_self) hm
      obtain ⟨f2, r2, c2, h2, k2⟩ := ih c1 (fun u mu => ho u (List.mem_cons_of_mem _ mu)) (Nat.le_trans (missing_le s _ _ k1) hm)
      refine ⟨max f1 f2 + 1, r1 :: r2, c2, ?_, fun d hd => k2 d (k1 d hd)⟩
      rw [transformSeq, (transform_mono sort vars (Nat.le_max_left f1 f2)).1 _ _ _ h1]
      simp only
      rw [(transform_mono sort vars (Nat.le_max_right f1 f2)).2 _ _ _ h2]

/-- C119: simplifying a type comes to an end, with one result, also if variables have themselves in their bounds. -/
theorem simplify_ends (sort : List Ty → List Ty) (vars : Vars) (s : List Nat) (hs : Closed vars s) (t : Ty)
    (ht : ∀ e, Occurs e t → e ∈ s) : ∃ r, (∃ fuel, simplify sort vars fuel t = some r) ∧
      ∀ fuel r', simplify sort vars fuel t = some r' → r' = r := by
  obtain ⟨f, r, c, h, _⟩ := (terminates_aux sort vars s hs (missing s [])).1 t [] ht (Nat.le_refl _)
  refine ⟨r, ⟨f, by rw [simplify, h]; rfl⟩, fun f' r' h' => ?_⟩
  unfold simplify at h'
  obtain ⟨⟨x, c'⟩, h1, h2⟩ := Option.map_eq_some_iff.mp h'
  have e1 := (transform_mono sort vars (Nat.le_max_left f f')).1 _ _ _ h
  have e2 := (transform_mono sort vars (Nat.le_max_right f f')).1 _ _ _ h1
  rw [e1] at e2
  cases e2
  exact h2.symm

/-! ## Examples -/

/-- `x` is a number or what `y` is, and `y` is a pair of a string and a length. -/
def exampleVars : Vars
  | 0 => some ([.leaf (.builtin 1), .node .tuple [.var 1]], [])
  | 1 => some ([.leaf (.builtin 2)], [.leaf (.builtin 3)])
  | _ => none

theorem example_vars : Acyclic exampleVars ∧ Closed exampleVars [0, 1] := by
  constructor
  · refine ⟨fun d => if d = 0 then 1 else 0, fun d lbs ubs hv t ht e ho => ?_⟩
    match d, hv with
    | 0, hv =>
      cases hv
      simp at ht
      rcases ht with rfl | rfl
      · cases ho
      · obtain ⟨u, m, o⟩ := occurs_node.mp ho
        simp at m; subst m; cases o; decide
    | 1, hv =>
      cases hv
      simp at ht
      rcases ht with rfl | rfl <;> cases ho
  · intro d hd
    simp at hd
    rcases hd with rfl | rfl
    · refine ⟨_, _, rfl, fun t ht e ho => ?_⟩
      simp at ht
      rcases ht with rfl | rfl
      · cases ho
      · obtain ⟨u, m, o⟩ := occurs_node.mp ho
        simp at m; subst m; cases o; decide
    · refine ⟨_, _, rfl, fun t ht e ho => ?_⟩
      simp at ht
      rcases ht with rfl | rfl <;> cases ho

theorem example_simplify : simplify id exampleVars 10 (.var 0) =
    some (.node (.bounds 2) [.leaf (.builtin 1), .node .tuple [.node (.bounds 1) [.leaf (.builtin 2), .leaf (.builtin 3)]]]) := by
  decide +kernel

/-- `y` is a string or what `z` is, `z` is a number or what `y` is, and `x` is a tuple of `z`, or what `y` is. -/
def loopVars : Vars
  | 0 => some ([.node .tuple [.var 2], .var 1], [])
  | 1 => some ([.leaf (.builtin 1), .var 2], [])
  | 2 => some ([.leaf (.builtin 2), .var 1], [])
  | _ => none

/-- The simplified type of `x` does not say that it may be a number, because what `y` is was found while `z` was not known. -/
theorem loop_loses : Alt loopVars (.var 0) (.leaf (.builtin 2)) ∧
    ∃ r, simplify id loopVars 20 (.var 0) = some r ∧ ¬ Alt noVars r (.leaf (.builtin 2)) := by
  refine ⟨.var 0 _ _ (.var 1) _ rfl (by simp) (.var 1 _ _ (.var 2) _ rfl (by simp) (.var 2 _ _ _ _ rfl List.mem_cons_self (.leaf _))), ?_⟩
  refine ⟨.node (.bounds 2) [.node .tuple [.node (.bounds 2) [.leaf (.builtin 2), .node (.bounds 2) [.leaf (.builtin 1), .any]]],
    .node (.bounds 2) [.leaf (.builtin 1), .any]], by decide +kernel, fun h => ?_⟩
  cases h with
  | bounds _ _ t _ m h =>
    simp at m
    rcases m with rfl | rfl
    · cases h
    · cases h with
      | bounds _ _ t _ m h =>
        simp at m
        rcases m with rfl | rfl <;> cases h

end Tinymist.Types
