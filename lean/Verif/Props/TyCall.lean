import Verif.Spec.Ty

/-!
# What a call binds (C118)
-/

namespace Tinymist.Types

open Spec

/-! ## Substitution -/

theorem occurs_inside {d : Nat} {n : Nat} {ts : List Ty} (h : ¬ Inside d (.node (.bounds n) ts)) : ∀ t, t ∈ ts → ¬ Occurs d t :=
  fun t m o => h (.bounds n ts t m o)

mutual
theorem subst_none (b : Nat → Option Ty) : ∀ t, (∀ d, Occurs d t → b d = none) → subst b t = t
  | .leaf l, _ => by rw [subst]
  | .var d, h => by rw [subst, h d .var]; rfl
  | .node g ts, h => by rw [subst, substList_none b ts (fun t m d o => h d (.node g ts t m o))]
theorem substList_none (b : Nat → Option Ty) : ∀ ts, (∀ t, t ∈ ts → ∀ d, Occurs d t → b d = none) → substList b ts = ts
  | [], _ => by rw [substList]
  | t :: ts, h => by
    rw [substList, subst_none b t (h t List.mem_cons_self), substList_none b ts (fun u m => h u (List.mem_cons_of_mem _ m))]
end

theorem mutate_node (b : Nat → Option Ty) (h : Head) (ts : List Ty) (hb : ∀ n, h ≠ .bounds n) :
    mutate b (.node h ts) = (mutateList b ts).map (Ty.node h) := by
  rw [mutate]
  cases h <;> first | rfl | simp_all

mutual
theorem mutate_subst (b : Nat → Option Ty) : ∀ t, (∀ d, Inside d t → b d = none) → (mutate b t).getD t = subst b t
  | .leaf l, _ => by rw [mutate, subst]; rfl
  | .var d, _ => by rw [mutate, subst]
  | .node h ts, hin => by
    by_cases hb : ∃ n, h = .bounds n
    · obtain ⟨n, rfl⟩ := hb
      rw [subst, substList_none b ts (fun t m d o => hin d (.bounds n ts t m o))]
      rw [mutate]; rfl
    · have hl := mutateList_subst b ts (fun t m d i => hin d (.node h ts t m i))
      rw [mutate_node b h ts (fun n e => hb ⟨n, e⟩), subst, ← hl]
      cases mutateList b ts <;> rfl
theorem mutateList_subst (b : Nat → Option Ty) : ∀ ts, (∀ t, t ∈ ts → ∀ d, Inside d t → b d = none) →
    (mutateList b ts).getD ts = substList b ts
  | [], _ => by rw [mutateList, substList]; rfl
  | t :: ts, h => by
    have h1 := mutate_subst b t (h t List.mem_cons_self)
    have h2 := mutateList_subst b ts (fun u m => h u (List.mem_cons_of_mem _ m))
    rw [mutateList, substList, ← h1, ← h2]
    cases mutate b t <;> cases mutateList b ts <;> rfl
end

/-! ## Bindings -/

theorem bindings_append (p q : List (Ty × Ty)) (d : Nat) : bindings (p ++ q) d = (bindings q d).or (bindings p d) := by
  unfold bindings
  rw [List.reverse_append, List.find?_append]
  cases q.reverse.find? fun p => decide (p.1 = .var d) <;> rfl

theorem bindings_none (p : List (Ty × Ty)) (d : Nat) (h : ∀ t, (Ty.var d, t) ∉ p) : bindings p d = none := by
  unfold bindings
  rw [Option.map_eq_none_iff, List.find?_eq_none]
  rintro ⟨a, b⟩ m e
  have : a = Ty.var d := of_decide_eq_true e
  exact h b (this ▸ List.mem_reverse.mp m)

theorem bindings_mem {p : List (Ty × Ty)} {d : Nat} {t : Ty} (h : bindings p d = some t) : (Ty.var d, t) ∈ p := by
  unfold bindings at h
  obtain ⟨⟨a, b⟩, hf, hb⟩ := Option.map_eq_some_iff.mp h
  have h1 : decide ((a, b).1 = Ty.var d) = true := List.find?_some (p := fun p : Ty × Ty => decide (p.1 = Ty.var d)) hf
  have h1 : a = Ty.var d := of_decide_eq_true h1
  have h2 := List.mem_reverse.mp (List.mem_of_find?_eq_some hf)
  rw [h1] at h2
  exact (show b = t from hb) ▸ h2

theorem bindings_unique (p : List (Ty × Ty)) (d : Nat) (t : Ty) (hm : (Ty.var d, t) ∈ p)
    (hu : ∀ u, (Ty.var d, u) ∈ p → u = t) : bindings p d = some t := by
  cases h : bindings p d with
  | none =>
    unfold bindings at h
    rw [Option.map_eq_none_iff, List.find?_eq_none] at h
    exact absurd (decide_eq_true (show (Ty.var d, t).1 = Ty.var d from rfl)) (h _ (List.mem_reverse.mpr hm))
  | some u => rw [hu u (bindings_mem h)]

/-! ## Signatures -/

/-- The fields in the order of their names. -/
def fields (named : List (Nat × Ty)) : List (Nat × Ty) := named.mergeSort fun a b => decide (a.1 ≤ b.1)

theorem mem_fields {named : List (Nat × Ty)} {x : Nat × Ty} : x ∈ fields named ↔ x ∈ named := List.mem_mergeSort

theorem fields_sorted (named : List (Nat × Ty)) (hn : (named.map (·.1)).Nodup) : ((fields named).map (·.1)).Pairwise (· < ·) := by
  have hs : (fields named).Pairwise fun a b => decide (a.1 ≤ b.1) = true :=
    List.pairwise_mergeSort (le := fun a b : Nat × Ty => decide (a.1 ≤ b.1))
      (fun a b c h1 h2 => decide_eq_true (Nat.le_trans (of_decide_eq_true h1) (of_decide_eq_true h2)))
      (fun a b => by simp [Nat.le_total]) named
  have hp : ((fields named).map (·.1)).Nodup := ((List.mergeSort_perm named _).map (·.1)).nodup_iff.mpr hn
  have h1 : ((fields named).map (·.1)).Pairwise (· ≤ ·) := List.pairwise_map.mpr (hs.imp fun h => of_decide_eq_true h)
  exact List.Pairwise.imp₂ (fun {a b} h1 h2 => Nat.lt_of_le_of_ne h1 h2) h1 hp

theorem newSig_start (pos : List Ty) (named : List (Nat × Ty)) (right body : Option Ty) :
    (newSig pos named none right body).shape.start = pos.length := by
  unfold newSig
  cases right <;> simp <;> omega

theorem newSig_inputs (pos : List Ty) (named : List (Nat × Ty)) (right body : Option Ty) :
    (newSig pos named none right body).inputs = pos ++ ((fields named).map (·.2) ++ right.toList) := by
  simp [newSig, fields]

theorem newSig_names (pos : List Ty) (named : List (Nat × Ty)) (left right body : Option Ty) :
    (newSig pos named left right body).shape.names = (fields named).map (·.1) := rfl

theorem newSig_positional (pos : List Ty) (named : List (Nat × Ty)) (right body : Option Ty) :
    (newSig pos named none right body).positional = pos := by
  unfold SigTy.positional
  rw [newSig_start, newSig_inputs, List.take_left']
  rfl

theorem newSig_rest (pos : List Ty) (named : List (Nat × Ty)) (right body : Option Ty) :
    (newSig pos named none right body).rest = right := by
  unfold SigTy.rest
  rw [newSig_inputs]
  cases right with
  | none => rfl
  | some r => show (if true = true then _ else _) = _; rw [if_pos rfl]; simp

theorem mem_numbered {names : List Nat} {i n : Nat} : (i, n) ∈ numbered names ↔ names[i]? = some n := by
  unfold numbered
  rw [List.mem_mapIdx]
  constructor
  · rintro ⟨j, hj, e⟩
    cases e
    exact List.getElem?_eq_getElem hj
  · intro h
    obtain ⟨hi, e⟩ := List.getElem?_eq_some_iff.mp h
    exact ⟨i, hi, by rw [e]⟩

theorem numbered_sorted {names : List Nat} (h : names.Pairwise (· < ·)) : (numbered names).Pairwise fun a b => a.2 < b.2 := by
  unfold numbered
  rw [List.pairwise_iff_getElem] at h ⊢
  intro i j hi hj hij
  rw [List.getElem_mapIdx, List.getElem_mapIdx]
  exact h i j (by simpa using hi) (by simpa using hj) hij

theorem mem_intersect (l r : List (Nat × Nat)) (hl : l.Pairwise fun a b => a.2 < b.2) (hr : r.Pairwise fun a b => a.2 < b.2) (i j : Nat) :
    (i, j) ∈ intersect l r ↔ ∃ n, (i, n) ∈ l ∧ (j, n) ∈ r := by
  fun_induction intersect l r with
  | case1 i' a as j' b bs hab ih =>
    rw [ih (List.pairwise_cons.mp hl).2 hr]
    constructor
    · rintro ⟨n, h1, h2⟩; exact ⟨n, List.mem_cons_of_mem _ h1, h2⟩
    · rintro ⟨n, h1, h2⟩
      rcases List.mem_cons.mp h1 with e | h1
      · cases e
        rcases List.mem_cons.mp h2 with e | h2
        · cases e; omega
        · have := (List.pairwise_cons.mp hr).1 _ h2; simp at this; omega
      · exact ⟨n, h1, h2⟩
  | case2 i' a as j' b bs hab hba ih =>
    rw [ih hl (List.pairwise_cons.mp hr).2]
    constructor
    · rintro ⟨n, h1, h2⟩; exact ⟨n, h1, List.mem_cons_of_mem _ h2⟩
    · rintro ⟨n, h1, h2⟩
      rcases List.mem_cons.mp h2 with e | h2
      · cases e
        rcases List.mem_cons.mp h1 with e | h1
        · cases e; omega
        · have := (List.pairwise_cons.mp hl).1 _ h1; simp at this; omega
      · exact ⟨n, h1, h2⟩
  | case3 i' a as j' b bs hab hba ih =>
    have hE : a = b := by omega
    subst hE
    rw [List.mem_cons, ih (List.pairwise_cons.mp hl).2 (List.pairwise_cons.mp hr).2]
    constructor
    · rintro (e | ⟨n, h1, h2⟩)
      · cases e; exact ⟨a, List.mem_cons_self, List.mem_cons_self⟩
      · exact ⟨n, List.mem_cons_of_mem _ h1, List.mem_cons_of_mem _ h2⟩
    · rintro ⟨n, h1, h2⟩
      rcases List.mem_cons.mp h1 with e1 | h1 <;> rcases List.mem_cons.mp h2 with e2 | h2
      · cases e1; cases e2; exact .inl rfl
      · cases e1; have := (List.pairwise_cons.mp hr).1 _ h2; simp at this
      · cases e2; have := (List.pairwise_cons.mp hl).1 _ h1; simp at this
      · exact .inr ⟨n, h1, h2⟩
  | case4 l r h =>
    constructor
    · intro m; cases m
    · rintro ⟨n, h1, h2⟩
      cases l with
      | nil => cases h1
      | cons x xs => cases r with
        | nil => cases h2
        | cons y ys => exact (h x.1 x.2 xs y.1 y.2 ys rfl rfl).elim

theorem newSig_field (pos : List Ty) (named : List (Nat × Ty)) (right body : Option Ty) (i : Nat) {n : Nat}
    (hi : ((fields named).map (·.1))[i]? = some n) :
    ∃ t, (n, t) ∈ named ∧ (newSig pos named none right body).inputs[i + (newSig pos named none right body).shape.start]? = some t ∧
      (fields named)[i]? = some (n, t) := by
  rw [List.getElem?_map, Option.map_eq_some_iff] at hi
  obtain ⟨⟨m, t⟩, hf, e⟩ := hi
  have e : m = n := e
  subst e
  refine ⟨t, mem_fields.mp (List.mem_of_getElem? hf), ?_, hf⟩
  have hlt : i < (fields named).length := (List.getElem?_eq_some_iff.mp hf).1
  rw [newSig_start, newSig_inputs, Nat.add_comm, List.getElem?_append_right (Nat.le_add_right _ _), Nat.add_sub_cancel_left,
    List.getElem?_append_left (by simpa using hlt), List.getElem?_map, hf]
  rfl

/-- Signatures have in common what has the same name. -/
theorem mem_common (p1 p2 : List Ty) (n1 n2 : List (Nat × Ty)) (r1 r2 b1 b2 : Option Ty) (h1 : (n1.map (·.1)).Nodup)
    (h2 : (n2.map (·.1)).Nodup) (l r : Ty) :
    (l, r) ∈ common (newSig p1 n1 none r1 b1) (newSig p2 n2 none r2 b2) ↔ ∃ n, (n, l) ∈ n1 ∧ (n, r) ∈ n2 := by
  unfold common
  rw [List.mem_filterMap, newSig_names, newSig_names]
  constructor
  · rintro ⟨⟨i, j⟩, hm, he⟩
    rw [mem_intersect _ _ (numbered_sorted (fields_sorted n1 h1)) (numbered_sorted (fields_sorted n2 h2))] at hm
    obtain ⟨n, hi, hj⟩ := hm
    obtain ⟨t, t1, t2, _⟩ := newSig_field p1 n1 r1 b1 i (mem_numbered.mp hi)
    obtain ⟨u, u1, u2, _⟩ := newSig_field p2 n2 r2 b2 j (mem_numbered.mp hj)
    simp only [t2, u2] at he
    cases he
    exact ⟨n, t1, u1⟩
  · rintro ⟨n, hl, hr⟩
    obtain ⟨i, hi⟩ := List.mem_iff_getElem?.mp (mem_fields.mpr hl)
    obtain ⟨j, hj⟩ := List.mem_iff_getElem?.mp (mem_fields.mpr hr)
    have hi' : ((fields n1).map (·.1))[i]? = some n := by rw [List.getElem?_map, hi]; rfl
    have hj' : ((fields n2).map (·.1))[j]? = some n := by rw [List.getElem?_map, hj]; rfl
    obtain ⟨t, _, t2, t3⟩ := newSig_field p1 n1 r1 b1 i hi'
    obtain ⟨u, _, u2, u3⟩ := newSig_field p2 n2 r2 b2 j hj'
    refine ⟨(i, j), ?_, ?_⟩
    · rw [mem_intersect _ _ (numbered_sorted (fields_sorted n1 h1)) (numbered_sorted (fields_sorted n2 h2))]
      exact ⟨n, mem_numbered.mpr hi', mem_numbered.mpr hj'⟩
    · simp only [t2, u2]
      rw [hi] at t3; rw [hj] at u3
      cases t3; cases u3; rfl

/-! ## Parameters and arguments -/

theorem subst_congr_aux (b c : Nat → Option Ty) : (∀ t, (∀ d, Occurs d t → b d = c d) → subst b t = subst c t) := by
  intro t
  induction t using Ty.rec (motive_2 := fun ts => (∀ t, t ∈ ts → ∀ d, Occurs d t → b d = c d) → substList b ts = substList c ts) with
  | leaf l => intro _; rw [subst, subst]
  | var d => intro h; rw [subst, subst, h d .var]
  | node g ts ih => intro h; rw [subst, subst, ih (fun t m d o => h d (.node g ts t m o))]
  | nil => rfl
  | cons t ts ih1 ih2 =>
    rename_i h
    rw [substList, substList, ih1 (h t List.mem_cons_self), ih2 (fun u m => h u (List.mem_cons_of_mem _ m))]

theorem inside_occurs {d : Nat} {t : Ty} (h : Inside d t) : Occurs d t := by
  induction h with
  | bounds n ts t m o => exact .node _ ts t m o
  | node g ts t m _ ih => exact .node g ts t m ih

/-- The variable of a parameter. -/
def Param.var : Param → Nat
  | .pos d => d
  | .named _ d _ => d
  | .spread d => d

theorem variables_eq (ps : List Param) : variables ps = ps.map Param.var := by
  unfold variables; congr 1

theorem var_inj {ps : List Param} (h : (variables ps).Nodup) {p q : Param} (hp : p ∈ ps) (hq : q ∈ ps) (e : p.var = q.var) : p = q := by
  rw [variables_eq] at h
  induction ps with
  | nil => cases hp
  | cons x xs ih =>
    rw [List.map_cons, List.nodup_cons] at h
    rcases List.mem_cons.mp hp with e1 | m1 <;> rcases List.mem_cons.mp hq with e2 | m2
    · rw [e1, e2]
    · exact absurd (show x.var ∈ xs.map Param.var from by rw [← e1, e]; exact List.mem_map_of_mem m2) h.1
    · exact absurd (show x.var ∈ xs.map Param.var from by rw [← e2, ← e]; exact List.mem_map_of_mem m1) h.1
    · exact ih h.2 m1 m2

theorem mem_positional {ps : List Param} {d : Nat} : d ∈ positional ps ↔ Param.pos d ∈ ps := by
  unfold positional
  rw [List.mem_filterMap]
  constructor
  · rintro ⟨p, hp, e⟩; cases p <;> simp at e; exact e ▸ hp
  · intro h; exact ⟨_, h, rfl⟩

theorem positional_sublist (ps : List Param) : (positional ps).Sublist (variables ps) := by
  rw [variables_eq]
  unfold positional
  induction ps with
  | nil => exact .slnil
  | cons p ps ih => cases p with
    | pos d => exact ih.cons_cons d
    | named n d t => exact ih.cons d
    | spread d => exact ih.cons d

theorem front_back (ps : List Param) : positional ps = front ps ++ back ps := by
  unfold front back positional
  rw [← List.filterMap_append, List.takeWhile_append_dropWhile]

/-- The named parameters. -/
def namedVars (ps : List Param) : List (Nat × Ty) := ps.filterMap fun | .named n d _ => some (n, Ty.var d) | _ => none

/-- The defaults. -/
def defaultsOf (ps : List Param) : List (Nat × Ty) := ps.filterMap fun | .named n _ t => some (n, t) | _ => none

/-- The named arguments. -/
def namedArgs (a : List Arg) : List (Nat × Ty) := a.filterMap fun | .named n t => some (n, t) | _ => none

theorem mem_namedVars {ps : List Param} {n : Nat} {l : Ty} : (n, l) ∈ namedVars ps ↔ ∃ d t, Param.named n d t ∈ ps ∧ l = .var d := by
  unfold namedVars
  rw [List.mem_filterMap]
  constructor
  · rintro ⟨p, hp, e⟩; cases p <;> simp at e; obtain ⟨rfl, rfl⟩ := e; exact ⟨_, _, hp, rfl⟩
  · rintro ⟨d, t, h, rfl⟩; exact ⟨_, h, rfl⟩

theorem mem_defaultsOf {ps : List Param} {n : Nat} {t : Ty} : (n, t) ∈ defaultsOf ps ↔ ∃ d, Param.named n d t ∈ ps := by
  unfold defaultsOf
  rw [List.mem_filterMap]
  constructor
  · rintro ⟨p, hp, e⟩; cases p <;> simp at e; obtain ⟨rfl, rfl⟩ := e; exact ⟨_, hp⟩
  · rintro ⟨d, h⟩; exact ⟨_, h, rfl⟩

theorem mem_namedArgs {a : List Arg} {n : Nat} {t : Ty} : (n, t) ∈ namedArgs a ↔ Arg.named n t ∈ a := by
  unfold namedArgs
  rw [List.mem_filterMap]
  constructor
  · rintro ⟨p, hp, e⟩; cases p <;> simp at e; obtain ⟨rfl, rfl⟩ := e; exact hp
  · intro h; exact ⟨_, h, rfl⟩

theorem namedVars_names (ps : List Param) : (namedVars ps).map (·.1) = names ps := by
  unfold namedVars names
  rw [List.map_filterMap]
  congr 1; funext p; cases p <;> rfl

theorem defaultsOf_names (ps : List Param) : (defaultsOf ps).map (·.1) = names ps := by
  unfold defaultsOf names
  rw [List.map_filterMap]
  congr 1; funext p; cases p <;> rfl

theorem namedArgs_names (a : List Arg) : (namedArgs a).map (·.1) = argNames a := by
  unfold namedArgs argNames
  rw [List.map_filterMap]
  congr 1; funext p; cases p <;> rfl

theorem pair_unique {l : List (Nat × Ty)} (h : (l.map (·.1)).Nodup) {n : Nat} {t u : Ty} (h1 : (n, t) ∈ l) (h2 : (n, u) ∈ l) : t = u := by
  induction l with
  | nil => cases h1
  | cons x xs ih =>
    rw [List.map_cons, List.nodup_cons] at h
    rcases List.mem_cons.mp h1 with e1 | m1 <;> rcases List.mem_cons.mp h2 with e2 | m2
    · rw [← e1] at e2; cases e2; rfl
    · exact absurd (show x.1 ∈ xs.map (·.1) from by rw [← e1]; exact List.mem_map_of_mem (f := (·.1)) m2) h.1
    · exact absurd (show x.1 ∈ xs.map (·.1) from by rw [← e2]; exact List.mem_map_of_mem (f := (·.1)) m1) h.1
    · exact ih h.2 m1 m2

theorem rightSpread_mem (ps : List Param) (pos : Nat) (l r : Option Nat) (d : Nat) (h : rightSpread ps pos l r = some d) :
    Param.spread d ∈ ps ∨ l = some d ∨ r = some d := by
  fun_induction rightSpread ps pos l r with
  | case1 => exact .inr (.inl h)
  | case2 => exact .inr (.inr h)
  | case3 ps pos l r e ih => rcases ih h with a | a | a <;> simp [a]
  | case4 ps n e t pos l r ih => rcases ih h with a | a | a <;> simp [a]
  | case5 e ps l r ih => rcases ih h with a | a | a <;> simp_all
  | case6 e ps pos l r hp ih => rcases ih h with a | a | a <;> simp_all

/-! ## The pairs of a call -/

theorem call_given (f : Callee) (given : List (List Arg)) (withs : List SigTy) (args : SigTy) :
    (given.foldl (fun f a => Callee.withArgs f (checkArgs a)) f).call withs args =
      f.call (withs ++ given.reverse.map checkArgs) args := by
  induction given generalizing f with
  | nil => simp
  | cons a as ih => rw [List.foldl_cons, ih, Callee.call]; simp

/-- The signature of a closure without an annotation. -/
def sigOf (ps : List Param) (body : Ty) : SigTy :=
  newSig ((positional ps).map .var) (namedVars ps) none ((rightSpread ps 0 none none).map .var) (some body)

/-- The arguments that stand for the defaults. -/
def defaultArgs (ps : List Param) : List SigTy := if defaultsOf ps = [] then [] else [newSig [] (defaultsOf ps) none none none]

theorem positional_map (ps : List Param) : (ps.filterMap fun | .pos d => some (Ty.var d) | _ => none) = (positional ps).map .var := by
  unfold positional
  rw [List.map_filterMap]
  congr 1; funext p; cases p <;> rfl

theorem callType_eq (ps : List Param) (body : Ty) (given : List (List Arg)) (args : List Arg) :
    callType ps none body given args = (sigOf ps body).call (checkArgs args) (given.reverse.map checkArgs ++ defaultArgs ps) := by
  have hf : (checkFunc ps none body) = (sigOf ps body, defaultsOf ps) := by
    unfold checkFunc sigOf
    rw [← positional_map]; rfl
  unfold callType
  rw [call_given]
  unfold funcType defaultArgs
  rw [hf]
  by_cases h : defaultsOf ps = []
  · simp only [h, if_true]; rw [Callee.call]; simp
  · simp only [h, if_false]; rw [Callee.call, Callee.call]; simp

theorem checkArgs_eq (a : List Arg) : checkArgs a = newSig (given a) (namedArgs a) none none none := rfl

theorem defaultArgs_positional (ps : List Param) : (defaultArgs ps).flatMap SigTy.positional = [] := by
  unfold defaultArgs
  split
  · rfl
  · simp [newSig_positional]

theorem stream_none (l : List Ty) (n : Nat) (h : l.length ≤ n) : stream l none n = l := List.take_of_length_le h

theorem given_flatten (cs : List (List Arg)) : cs.flatMap given = given cs.flatten := by
  unfold given
  rw [List.filterMap_flatten]
  rfl

/-- The pairs of positional parameters and arguments. -/
def posPairs (ps : List Param) (all : List (List Arg)) : List (Ty × Ty) :=
  let vars := (positional ps).map Ty.var
  (stream vars ((rightSpread ps 0 none none).map .var) (max vars.length (given all.flatten).length)).zip (given all.flatten)

theorem positional_call (all : List (List Arg)) : (all.map checkArgs).flatMap SigTy.positional = given all.flatten := by
  rw [← given_flatten, List.flatMap_map]
  congr 1; funext a
  rw [checkArgs_eq, newSig_positional]

theorem matches_eq (ps : List Param) (body : Ty) (gs : List (List Arg)) (args : List Arg) :
    (sigOf ps body).matches (checkArgs args) (gs.reverse.map checkArgs ++ defaultArgs ps) =
      posPairs ps (gs ++ [args]) ++ ((defaultArgs ps).flatMap (common (sigOf ps body)) ++
        (gs ++ [args]).flatMap fun a => common (sigOf ps body) (checkArgs a)) := by
  have hr : (gs.reverse.map checkArgs ++ defaultArgs ps).reverse = defaultArgs ps ++ gs.map checkArgs := by
    rw [List.reverse_append, List.map_reverse, List.reverse_reverse]
    congr 1
    unfold defaultArgs; split <;> rfl
  have hp : (defaultArgs ps ++ gs.map checkArgs).flatMap SigTy.positional ++ (checkArgs args).positional = given (gs ++ [args]).flatten := by
    rw [List.flatMap_append, defaultArgs_positional, List.nil_append, ← positional_call, List.map_append, List.flatMap_append]
    simp
  have hl : ((gs.reverse.map checkArgs ++ defaultArgs ps).map fun w => w.positional.length).sum + (checkArgs args).positional.length =
      (given (gs ++ [args]).flatten).length := by
    rw [← hp, ← hr, List.length_append, List.length_flatMap, List.map_reverse (l := gs.reverse.map checkArgs ++ defaultArgs ps), List.sum_reverse]
  have hrest : (checkArgs args).rest = none := by rw [checkArgs_eq, newSig_rest]
  have hsp : (sigOf ps body).positional = (positional ps).map .var := newSig_positional _ _ _ _
  have hsr : (sigOf ps body).rest = (rightSpread ps 0 none none).map .var := newSig_rest _ _ _ _
  unfold SigTy.matches
  simp only [hr, hp, hl, hrest, hsp, hsr, Option.isSome_none, Bool.and_false, Bool.false_eq_true, if_false, Nat.add_zero]
  rw [stream_none _ _ (Nat.le_max_right _ _)]
  unfold posPairs
  congr 1
  rw [List.flatMap_append, List.append_assoc, List.flatMap_append, List.flatMap_map]
  simp

theorem mem_posPairs {ps : List Param} {all : List (List Arg)} {d : Nat} {t : Ty} (hd : Param.spread d ∉ ps) :
    (Ty.var d, t) ∈ posPairs ps all ↔ ∃ i : Nat, (positional ps)[i]? = some d ∧ (given all.flatten)[i]? = some t := by
  have hs : ∀ i : Nat, (stream ((positional ps).map Ty.var) ((rightSpread ps 0 none none).map Ty.var)
      (max ((positional ps).map Ty.var).length (given all.flatten).length))[i]? = some (Ty.var d) ↔ (positional ps)[i]? = some d := by
    intro i
    generalize hn : max ((positional ps).map Ty.var).length (given all.flatten).length = n
    have hle : (positional ps).length ≤ n := by rw [← hn, List.length_map]; exact Nat.le_max_left _ _
    have hmap : ((positional ps).map Ty.var)[i]? = some (.var d) ↔ (positional ps)[i]? = some d := by
      rw [List.getElem?_map, Option.map_eq_some_iff]
      constructor
      · rintro ⟨a, h, e⟩; cases e; exact h
      · intro h; exact ⟨d, h, rfl⟩
    cases hr : rightSpread ps 0 none none with
    | none =>
      rw [Option.map_none, stream_none _ _ (by rw [List.length_map]; exact hle)]
      exact hmap
    | some e =>
      have hne : e ≠ d := by
        rintro rfl
        rcases rightSpread_mem ps 0 none none e hr with h | h | h
        · exact hd h
        · cases h
        · cases h
      show (List.take n (List.map Ty.var (positional ps) ++ List.replicate n (Ty.var e)))[i]? = _ ↔ _
      rw [← hmap, List.getElem?_take]
      by_cases hi : i < (positional ps).length
      · rw [if_pos (by omega), List.getElem?_append_left (by simpa using hi)]
      · have h1 : ((positional ps).map Ty.var)[i]? = none := List.getElem?_eq_none (by simp; omega)
        rw [h1]
        constructor
        · split
          · rw [List.getElem?_append_right (by simp; omega), List.getElem?_replicate]
            split
            · intro h; cases h; exact absurd rfl hne
            · intro h; cases h
          · intro h; cases h
        · intro h; cases h
  unfold posPairs
  constructor
  · intro h
    obtain ⟨i, hi⟩ := List.mem_iff_getElem?.mp h
    rw [List.getElem?_zip_eq_some] at hi
    exact ⟨i, (hs i).mp hi.1, hi.2⟩
  · rintro ⟨i, h1, h2⟩
    exact List.mem_of_getElem? (i := i) (List.getElem?_zip_eq_some.mpr ⟨(hs i).mpr h1, h2⟩)

theorem mem_common_args {ps : List Param} {body : Ty} {a : List Arg} (hf : (names ps).Nodup) (hc : Call a) {d : Nat} {r : Ty} :
    (Ty.var d, r) ∈ common (sigOf ps body) (checkArgs a) ↔ ∃ n t, Param.named n d t ∈ ps ∧ Arg.named n r ∈ a := by
  rw [checkArgs_eq, sigOf, mem_common _ _ _ _ _ _ _ _ (by rw [namedVars_names]; exact hf) (by rw [namedArgs_names]; exact hc)]
  constructor
  · rintro ⟨n, h1, h2⟩
    obtain ⟨e, t, hp, he⟩ := mem_namedVars.mp h1
    cases he
    exact ⟨n, t, hp, mem_namedArgs.mp h2⟩
  · rintro ⟨n, t, h1, h2⟩
    exact ⟨n, mem_namedVars.mpr ⟨d, t, h1, rfl⟩, mem_namedArgs.mpr h2⟩

theorem mem_common_defaults {ps : List Param} {body : Ty} (hf : Function ps) {d : Nat} {r : Ty} :
    (Ty.var d, r) ∈ (defaultArgs ps).flatMap (common (sigOf ps body)) ↔ ∃ n, Param.named n d r ∈ ps := by
  have hm : (Ty.var d, r) ∈ common (sigOf ps body) (newSig [] (defaultsOf ps) none none none) ↔ ∃ n, Param.named n d r ∈ ps := by
    rw [sigOf, mem_common _ _ _ _ _ _ _ _ (by rw [namedVars_names]; exact hf.2) (by rw [defaultsOf_names]; exact hf.2)]
    constructor
    · rintro ⟨n, h1, h2⟩
      obtain ⟨e, t, hp, he⟩ := mem_namedVars.mp h1
      cases he
      have : r = t := pair_unique (by rw [defaultsOf_names]; exact hf.2) h2 (mem_defaultsOf.mpr ⟨_, hp⟩)
      exact ⟨n, this ▸ hp⟩
    · rintro ⟨n, h1⟩
      exact ⟨n, mem_namedVars.mpr ⟨d, r, h1, rfl⟩, mem_defaultsOf.mpr ⟨d, h1⟩⟩
  unfold defaultArgs
  by_cases h : defaultsOf ps = []
  · rw [if_pos h]
    constructor
    · intro h; cases h
    · rintro ⟨n, hn⟩
      have := mem_defaultsOf.mpr ⟨d, hn⟩
      rw [h] at this; cases this
  · rw [if_neg h, List.flatMap_cons, List.flatMap_nil, List.append_nil]
    exact hm

/-- The last argument with a name. -/
def Last (n : Nat) (t : Ty) (as : List Arg) : Prop := ∃ before after, as = before ++ Arg.named n t :: after ∧ ∀ u, Arg.named n u ∉ after

theorem last_append (n : Nat) (t : Ty) (as bs : List Arg) :
    Last n t (as ++ bs) ↔ Last n t bs ∨ ((∀ u, Arg.named n u ∉ bs) ∧ Last n t as) := by
  constructor
  · rintro ⟨x, y, e, hy⟩
    rcases List.append_eq_append_iff.mp e with ⟨z, e1, e2⟩ | ⟨z, e1, e2⟩
    · exact .inl ⟨z, y, e2, hy⟩
    · cases z with
      | nil => exact .inl ⟨[], y, e2.symm, hy⟩
      | cons w ws =>
        injection e2 with e2 e3
        refine .inr ⟨fun u m => hy u (by rw [e3]; exact List.mem_append_right _ m), x, ws, by rw [e1, e2], fun u m => hy u (by rw [e3]; exact List.mem_append_left _ m)⟩
  · rintro (⟨x, y, e, hy⟩ | ⟨hb, x, y, e, hy⟩)
    · exact ⟨as ++ x, y, by rw [e, List.append_assoc], hy⟩
    · refine ⟨x, y ++ bs, by rw [e]; simp, fun u m => ?_⟩
      rcases List.mem_append.mp m with m | m
      · exact hy u m
      · exact hb u m

theorem last_mem {n : Nat} {t : Ty} {as : List Arg} (h : Last n t as) : Arg.named n t ∈ as := by
  obtain ⟨x, y, rfl, _⟩ := h; simp

theorem last_of_mem {n : Nat} {t : Ty} {as : List Arg} (hc : Call as) (h : Arg.named n t ∈ as) : Last n t as := by
  obtain ⟨x, y, rfl⟩ := List.append_of_mem h
  refine ⟨x, y, rfl, fun u m => ?_⟩
  unfold Call argNames at hc
  rw [List.filterMap_append, List.filterMap_cons] at hc
  have h2 := (List.nodup_append.mp hc).2.1
  exact (List.nodup_cons.mp h2).1 (List.mem_filterMap.mpr ⟨_, m, rfl⟩)

theorem last_exists {n : Nat} (as : List Arg) : (∃ t, Last n t as) ∨ ∀ u, Arg.named n u ∉ as := by
  induction as with
  | nil => exact .inr (by simp)
  | cons a as ih =>
    rcases ih with ⟨t, h⟩ | h
    · exact .inl ⟨t, (last_append n t [a] as).mpr (.inl h)⟩
    · by_cases ha : ∃ t, a = Arg.named n t
      · obtain ⟨t, rfl⟩ := ha
        exact .inl ⟨t, [], as, rfl, h⟩
      · exact .inr fun u m => by
          rcases List.mem_cons.mp m with rfl | m
          · exact ha ⟨u, rfl⟩
          · exact h u m

theorem last_unique {n : Nat} {t u : Ty} {as : List Arg} (h1 : Last n t as) (h2 : Last n u as) : t = u := by
  obtain ⟨x, y, rfl, hy⟩ := h1
  rcases (last_append n u x (Arg.named n t :: y)).mp h2 with h | ⟨h, _⟩
  · rcases (last_append n u [Arg.named n t] y).mp h with h | ⟨_, h⟩
    · exact absurd (last_mem h) (hy u)
    · have := last_mem h
      simp at this; exact this.symm
  · exact absurd List.mem_cons_self (h t)

theorem bindings_named {ps : List Param} {body : Ty} (hf : Function ps) {n d : Nat} {t0 : Ty} (hp : Param.named n d t0 ∈ ps)
    (all : List (List Arg)) (hc : ∀ c, c ∈ all → Call c) (t : Ty) :
    bindings (all.flatMap fun a => common (sigOf ps body) (checkArgs a)) d = some t ↔ Last n t all.flatten := by
  have huniq : ∀ m u, Param.named m d u ∈ ps → m = n := by
    intro m u hm
    have := var_inj hf.1 hm hp rfl
    cases this; rfl
  induction all generalizing t with
  | nil =>
    constructor
    · intro h; cases h
    · rintro ⟨x, y, e, _⟩
      cases x <;> cases e
  | cons a as ih =>
    have ih := ih (fun c m => hc c (List.mem_cons_of_mem _ m))
    have hca := hc a List.mem_cons_self
    rw [List.flatMap_cons, bindings_append, List.flatten_cons, last_append]
    rcases last_exists (n := n) as.flatten with ⟨u, hu⟩ | hno
    · rw [(ih u).mpr hu]
      show some u = some t ↔ _
      constructor
      · intro e; cases e; exact .inl hu
      · rintro (h | ⟨h, _⟩)
        · rw [last_unique hu h]
        · exact absurd (last_mem hu) (h u)
    · have hn : bindings (as.flatMap fun a => common (sigOf ps body) (checkArgs a)) d = none := by
        cases h : bindings (as.flatMap fun a => common (sigOf ps body) (checkArgs a)) d with
        | none => rfl
        | some v => exact absurd (last_mem ((ih v).mp h)) (hno v)
      have hmem : ∀ u, (Ty.var d, u) ∈ common (sigOf ps body) (checkArgs a) ↔ Arg.named n u ∈ a := by
        intro u
        rw [mem_common_args hf.2 hca]
        constructor
        · rintro ⟨m, v, h1, h2⟩
          have := huniq m v h1
          subst this; exact h2
        · intro h; exact ⟨n, t0, hp, h⟩
      rw [hn]
      show bindings _ d = some t ↔ _
      constructor
      · intro h
        exact .inr ⟨hno, last_of_mem hca ((hmem t).mp (bindings_mem h))⟩
      · rintro (h | ⟨_, h⟩)
        · exact absurd (last_mem h) (hno t)
        · exact bindings_unique _ _ _ ((hmem t).mpr (last_mem h))
            fun u hu => last_unique (last_of_mem hca ((hmem u).mp hu)) h

theorem nodup_index {l : List Nat} (h : l.Nodup) {i j d : Nat} (hi : l[i]? = some d) (hj : l[j]? = some d) : i = j :=
  (List.getElem?_inj (List.getElem?_eq_some_iff.mp hi).1 h).mp (hi.trans hj.symm)

/-- What is bound is what is passed. -/
theorem bindings_passed (ps : List Param) (body : Ty) (all : List (List Arg)) (hf : Function ps) (hb : back ps = [])
    (hc : ∀ c, c ∈ all → Call c) (d : Nat) (hd : Param.spread d ∉ ps) (t : Ty) :
    bindings (posPairs ps all ++ ((defaultArgs ps).flatMap (common (sigOf ps body)) ++
        all.flatMap fun a => common (sigOf ps body) (checkArgs a))) d = some t ↔ Passed ps all.flatten d t := by
  have hfront : positional ps = front ps := by rw [front_back, hb, List.append_nil]
  have hpos : (positional ps).Nodup := (positional_sublist ps).nodup hf.1
  have hkey : ∀ u, (Ty.var d, u) ∈ (defaultArgs ps).flatMap (common (sigOf ps body)) ++
      (all.flatMap fun a => common (sigOf ps body) (checkArgs a)) → ∃ n v, Param.named n d v ∈ ps := by
    intro u hu
    rcases List.mem_append.mp hu with hu | hu
    · obtain ⟨n, h⟩ := (mem_common_defaults hf).mp hu
      exact ⟨n, u, h⟩
    · obtain ⟨a, ha, hu⟩ := List.mem_flatMap.mp hu
      obtain ⟨n, v, h, _⟩ := (mem_common_args hf.2 (hc a ha)).mp hu
      exact ⟨n, v, h⟩
  by_cases hn : ∃ n v, Param.named n d v ∈ ps
  · obtain ⟨n, v, hp⟩ := hn
    have hnopos : ∀ i : Nat, (positional ps)[i]? ≠ some d := by
      intro i hi
      have := var_inj hf.1 hp (mem_positional.mp (List.mem_of_getElem? hi)) rfl
      cases this
    have h1 : bindings (posPairs ps all) d = none := bindings_none _ _ fun u hu => by
      obtain ⟨i, hi, _⟩ := (mem_posPairs hd).mp hu
      exact hnopos i hi
    have h2 : bindings ((defaultArgs ps).flatMap (common (sigOf ps body))) d = some v :=
      bindings_unique _ _ _ ((mem_common_defaults hf).mpr ⟨n, hp⟩) fun u hu => by
        obtain ⟨m, hm⟩ := (mem_common_defaults hf).mp hu
        have := var_inj hf.1 hm hp rfl
        cases this; rfl
    have hpassed : Passed ps all.flatten d t ↔ Last n t all.flatten ∨ ((∀ u, Arg.named n u ∉ all.flatten) ∧ t = v) := by
      constructor
      · intro h
        cases h with
        | front i _ _ h1 h2 => exact absurd (hfront ▸ h1) (hnopos i)
        | back i _ _ h1 h2 => rw [hb] at h1; simp at h1
        | named m _ u _ x y h1 h2 h3 =>
          have := var_inj hf.1 h1 hp rfl
          cases this
          exact .inl ⟨x, y, h2, h3⟩
        | default m _ _ h1 h4 =>
          have := var_inj hf.1 h1 hp rfl
          cases this
          exact .inr ⟨h4, rfl⟩
      · rintro (⟨x, y, h2, h3⟩ | ⟨h, rfl⟩)
        · exact .named n d v t x y hp h2 h3
        · exact .default n d t hp h
    rw [bindings_append, bindings_append, h1, h2, hpassed, ← bindings_named hf hp all hc t (body := body)]
    rcases last_exists (n := n) all.flatten with ⟨u, hu⟩ | hno
    · rw [(bindings_named hf hp all hc u).mpr hu]
      show some u = some t ↔ some u = some t ∨ _
      constructor
      · exact .inl
      · rintro (h | ⟨h, _⟩)
        · exact h
        · exact absurd (last_mem hu) (h u)
    · have h3 : bindings (all.flatMap fun a => common (sigOf ps body) (checkArgs a)) d = none := by
        cases h : bindings (all.flatMap fun a => common (sigOf ps body) (checkArgs a)) d with
        | none => rfl
        | some w => exact absurd (last_mem ((bindings_named hf hp all hc w).mp h)) (hno w)
      rw [h3]
      show some v = some t ↔ none = some t ∨ _
      constructor
      · intro e; cases e; exact .inr ⟨hno, rfl⟩
      · rintro (h | ⟨_, h⟩)
        · cases h
        · rw [h]
  · have h2 : bindings ((defaultArgs ps).flatMap (common (sigOf ps body)) ++
        all.flatMap fun a => common (sigOf ps body) (checkArgs a)) d = none := bindings_none _ _ fun u hu => hn (hkey u hu)
    rw [bindings_append, h2]
    show bindings _ d = some t ↔ _
    constructor
    · intro h
      obtain ⟨i, h1, h2⟩ := (mem_posPairs hd).mp (bindings_mem h)
      exact .front i d t (hfront ▸ h1) h2
    · intro h
      cases h with
      | front i _ _ h1 h2 =>
        refine bindings_unique _ _ _ ((mem_posPairs hd).mpr ⟨i, hfront ▸ h1, h2⟩) fun u hu => ?_
        obtain ⟨j, h3, h4⟩ := (mem_posPairs hd).mp hu
        have := nodup_index hpos h3 (hfront ▸ h1)
        subst this
        rw [h2] at h4; cases h4; rfl
      | back i _ _ h1 h2 => rw [hb] at h1; simp at h1
      | named m _ u _ x y h1 h2 h3 => exact absurd ⟨m, u, h1⟩ hn
      | default m _ _ h1 h2 => exact absurd ⟨m, t, h1⟩ hn

/-- C118: the type of a call is the type of the body of the function, with every parameter replaced by the type of what the call passes
for it: its positional argument, the last argument with its name, or its default. Arguments may have been given before with `with`. Not
so for functions that have a parameter behind the sink, for the sink itself, for calls that spread arguments, and for functions whose
documentation gives the type of the result. -/
theorem call_type_partial (ps : List Param) (body : Ty) (gs : List (List Arg)) (args : List Arg) (hf : Function ps) (hb : back ps = [])
    (hc : ∀ c, c ∈ gs ++ [args] → Call c) (hs : ∀ d, Param.spread d ∈ ps → ¬ Occurs d body) (hi : ∀ d, d ∈ variables ps → ¬ Inside d body)
    (_hno : ∀ c, c ∈ gs ++ [args] → ∀ t, Arg.spread t ∉ c) :
    ∃ b : Nat → Option Ty, (∀ d t, Param.spread d ∉ ps → (b d = some t ↔ Passed ps (gs ++ [args]).flatten d t)) ∧
      callType ps none body gs args = some (subst b body) := by
  refine ⟨_, fun d t hd => bindings_passed ps body (gs ++ [args]) hf hb hc d hd t, ?_⟩
  rw [callType_eq, SigTy.call, matches_eq]
  show some _ = _
  congr 1
  refine mutate_subst _ body fun d hin => ?_
  by_cases hd : Param.spread d ∈ ps
  · exact absurd (inside_occurs hin) (hs d hd)
  · cases h : bindings (posPairs ps (gs ++ [args]) ++ ((defaultArgs ps).flatMap (common (sigOf ps body)) ++
        (gs ++ [args]).flatMap fun a => common (sigOf ps body) (checkArgs a))) d with
    | none => rfl
    | some t =>
      have hp := (bindings_passed ps body (gs ++ [args]) hf hb hc d hd t).mp h
      have hv : d ∈ variables ps := by
        rw [variables_eq]
        cases hp with
        | front i _ _ h1 h2 =>
          have h1 : (positional ps)[i]? = some d := by rw [front_back, hb, List.append_nil]; exact h1
          exact List.mem_map.mpr ⟨_, mem_positional.mp (List.mem_of_getElem? h1), rfl⟩
        | back i _ _ h1 h2 => rw [hb] at h1; simp at h1
        | named m _ u _ x y h1 h2 h3 => exact List.mem_map.mpr ⟨_, h1, rfl⟩
        | default m _ _ h1 h2 => exact List.mem_map.mpr ⟨_, h1, rfl⟩
      exact absurd hin (hi d hv)

/-! ## A function and calls that are like this -/

/-- `#let f(a, b: 0, ..c) = (a, b)` with variables 0 for `a`, 1 for `b` and 2 for `c`. The name `b` is 7. -/
def examplePs : List Param := [.pos 0, .named 7 1 (.leaf (.value 0)), .spread 2]

/-- `(a, b)` -/
def exampleBody : Ty := .node .tuple [.var 0, .var 1]

theorem example_hypotheses : Function examplePs ∧ back examplePs = [] ∧ (∀ d, Param.spread d ∈ examplePs → ¬ Occurs d exampleBody) ∧
    (∀ d, d ∈ variables examplePs → ¬ Inside d exampleBody) := by
  refine ⟨⟨by decide, by decide⟩, by decide, fun d hd ho => ?_, fun d _ hi => ?_⟩
  · simp [examplePs] at hd
    subst hd
    cases ho with
    | node _ _ t m o => simp [exampleBody] at m; rcases m with rfl | rfl <;> cases o
  · cases hi with
    | node _ _ t m o => simp at m; rcases m with rfl | rfl <;> cases o

/-- `f(1)` has the default, `f(b: 2, 1)` does not, and `f.with(b: 2)(b: 3, 1)` has what came last. -/
theorem example_calls :
    callType examplePs none exampleBody [] [.pos (.leaf (.value 1))] = some (.node .tuple [.leaf (.value 1), .leaf (.value 0)]) ∧
    callType examplePs none exampleBody [] [.named 7 (.leaf (.value 2)), .pos (.leaf (.value 1))] =
      some (.node .tuple [.leaf (.value 1), .leaf (.value 2)]) ∧
    callType examplePs none exampleBody [[.named 7 (.leaf (.value 2))]] [.named 7 (.leaf (.value 3)), .pos (.leaf (.value 1))] =
      some (.node .tuple [.leaf (.value 1), .leaf (.value 3)]) := by
  refine ⟨?_, ?_, ?_⟩ <;> decide +kernel

/-! ## Where it is not like this -/

/-- `#let f(..a, b) = b`, `f(1, 2)`: `b` is 2, and the type says 1. -/
theorem behind_sink_wrong : Passed [.spread 0, .pos 1] [.pos (.leaf (.value 1)), .pos (.leaf (.value 2))] 1 (.leaf (.value 2)) ∧
    callType [.spread 0, .pos 1] none (.var 1) [] [.pos (.leaf (.value 1)), .pos (.leaf (.value 2))] = some (.leaf (.value 1)) := by
  refine ⟨.back 0 1 _ (by decide) (by decide), by decide +kernel⟩

/-- `#let f(..a) = a`, `f(1, 2)`: the type of all arguments is that of the last one. -/
theorem sink_wrong : (∀ t, ¬ Passed [.spread 0] [.pos (.leaf (.value 1)), .pos (.leaf (.value 2))] 0 t) ∧
    callType [.spread 0] none (.var 0) [] [.pos (.leaf (.value 1)), .pos (.leaf (.value 2))] = some (.leaf (.value 2)) := by
  refine ⟨fun t h => ?_, by decide +kernel⟩
  cases h with
  | front i _ _ h1 h2 => simp [front, positional] at h1
  | back i _ _ h1 h2 => simp [back, positional] at h1
  | named n _ _ _ x y h1 h2 h3 => simp at h1
  | default n _ _ h1 h2 => simp at h1

/-- `#let f(a) = a`, `f(..(1,), 2)`, as in `f(..xs, 2)`: the first argument is 1, and the type says 2. -/
theorem spread_wrong :
    callType [.pos 0] none (.var 0) [] [.spread (.node .tuple [.leaf (.value 1)]), .pos (.leaf (.value 2))] = some (.leaf (.value 2)) := by
  decide +kernel

/-- `#let f(a) = a`, whose documentation says what the result is: the type of a call has the variable of the function in it. -/
theorem annotated_wrong (t : Ty) :
    callType [.pos 0] (some t) (.var 0) [] [.pos (.leaf (.value 1))] = some (.node (.bounds 1) [.var 0, t]) := by
  simp [callType, funcType, checkFunc, Callee.call, SigTy.call, newSig, mutate]

/-! ## Sinks -/

open Classical in
theorem rightSpread_none (ps : List Param) (pos : Nat) (l r : Option Nat) (h : ∀ d, Param.spread d ∉ ps) :
    rightSpread ps pos l r = if pos = 0 ∧ ∀ d, Param.pos d ∉ ps then l else r := by
  induction ps generalizing pos with
  | nil => simp [rightSpread]
  | cons p ps ih =>
    have h' : ∀ d, Param.spread d ∉ ps := fun d hd => h d (List.mem_cons_of_mem _ hd)
    cases p with
    | pos e =>
      rw [rightSpread, ih _ h', if_neg (by simp), if_neg]
      rintro ⟨_, hp⟩
      exact hp e List.mem_cons_self
    | named n e t =>
      rw [rightSpread, ih _ h']
      simp
    | spread e => exact absurd List.mem_cons_self (h e)

open Classical in
theorem rightSpread_one (before after : List Param) (d pos : Nat) (hb : ∀ e, Param.spread e ∉ before) (ha : ∀ e, Param.spread e ∉ after) :
    rightSpread (before ++ .spread d :: after) pos none none =
      if (pos ≠ 0 ∨ ∃ e, Param.pos e ∈ before) ∨ ∀ e, Param.pos e ∉ after then some d else none := by
  induction before generalizing pos with
  | nil =>
    rw [List.nil_append, rightSpread, rightSpread_none _ _ _ _ ha, rightSpread_none _ _ _ _ ha]
    by_cases hp : pos = 0
    · simp [hp]
    · simp [hp]
  | cons p ps ih =>
    have h' : ∀ e, Param.spread e ∉ ps := fun e he => hb e (List.mem_cons_of_mem _ he)
    cases p with
    | pos e =>
      rw [List.cons_append, rightSpread, ih _ h', if_pos (.inl (.inl (by omega))), if_pos (.inl (.inr ⟨e, List.mem_cons_self⟩))]
    | named n e t =>
      rw [List.cons_append, rightSpread, ih _ h']
      simp
    | spread e => exact absurd List.mem_cons_self (hb e)

open Classical in
/-- C118: the sink of a function takes the arguments that are left over, but not one before all the positional parameters. -/
theorem sink_taken (before after : List Param) (d : Nat) (annotated : Option Ty) (body : Ty)
    (hb : ∀ e, Param.spread e ∉ before) (ha : ∀ e, Param.spread e ∉ after) :
    (checkFunc (before ++ .spread d :: after) annotated body).1.rest =
      if (∃ e, Param.pos e ∈ before) ∨ ∀ e, Param.pos e ∉ after then some (.var d) else none := by
  simp only [checkFunc]
  rw [newSig_rest, rightSpread_one _ _ _ _ hb ha]
  simp only [ne_eq, not_true_eq_false, false_or]
  split <;> rfl

/-- C118: a function without a sink takes no more. -/
theorem no_sink (ps : List Param) (annotated : Option Ty) (body : Ty) (h : ∀ e, Param.spread e ∉ ps) :
    (checkFunc ps annotated body).1.rest = none := by
  simp only [checkFunc]
  rw [newSig_rest, rightSpread_none _ _ _ _ h]
  split <;> rfl

/-- `(..a, b) => {}` and `(a, ..b) => {}` -/
example : (checkFunc [.spread 0, .pos 1] none .any).1.rest = none ∧ (checkFunc [.pos 0, .spread 1] none .any).1.rest = some (.var 1) := by
  refine ⟨?_, ?_⟩
  · rw [show [Param.spread 0, .pos 1] = [] ++ .spread 0 :: [.pos 1] from rfl, sink_taken _ _ _ _ _ (by simp) (by simp)]
    simp
  · rw [show [Param.pos 0, .spread 1] = [.pos 0] ++ .spread 1 :: [] from rfl, sink_taken _ _ _ _ _ (by simp) (by simp)]
    simp

/-- C118: what is left over on both sides belongs together. -/
theorem rests_match (s args : SigTy) (withs : List SigTy) (r a : Ty) (hs : s.rest = some r) (ha : args.rest = some a) :
    (r, a) ∈ s.matches args withs := by
  have key : ∀ (pos : List Ty) (x : Ty) (n : Nat), pos.length < n → (stream pos (some x) n)[n - 1]? = some x := by
    intro pos x n h
    simp only [stream]
    rw [List.getElem?_take, if_pos (by omega), List.getElem?_append_right (by omega), List.getElem?_replicate, if_pos (by omega)]
  unfold SigTy.matches
  simp only [hs, ha, Option.isSome_some, Bool.and_true, if_true]
  apply List.mem_append_left
  apply List.mem_of_getElem? (i := max s.positional.length ((withs.map fun w => w.positional.length).sum + args.positional.length))
  rw [List.getElem?_zip_eq_some]
  have hl : (withs.reverse.flatMap SigTy.positional ++ args.positional).length =
      (withs.map fun w => w.positional.length).sum + args.positional.length := by
    rw [List.length_append, List.length_flatMap, List.map_reverse, List.sum_reverse]
  refine ⟨?_, ?_⟩
  · exact key _ _ (max s.positional.length _ + 1) (by omega)
  · exact key _ _ (max s.positional.length _ + 1) (by omega)

/-! ## Elements of tuples -/

/-- C118: the type of an element of a tuple: that of the element, if the index is one, and one that has all of them as alternatives if the
index is not known or none. -/
theorem tuple_at (sort : List Ty → List Ty) (hsort : ∀ l, (sort l).Perm l) (elems : List Ty) (index : Option Nat) :
    (∀ i t, index = some i → elems[i]? = some t → tupleAt sort elems index = t) ∧
    ((∀ i, index = some i → elems.length ≤ i) → ∀ t, t ∈ elems →
      tupleAt sort elems index = t ∧ elems = [t] ∨ ∃ ts, tupleAt sort elems index = .node .union ts ∧ t ∈ ts ∧ ts.Perm elems) := by
  constructor
  · intro i t hi ht
    unfold tupleAt
    rw [hi, Option.bind_some, ht]
  · intro h t ht
    have hn : index.bind (elems[·]?) = none := by
      cases index with
      | none => rfl
      | some i => rw [Option.bind_some]; exact List.getElem?_eq_none (h i rfl)
    unfold tupleAt
    rw [hn]
    match elems, ht with
    | [u], ht => rw [List.mem_singleton.mp ht]; exact .inl ⟨rfl, rfl⟩
    | u :: v :: w, ht => exact .inr ⟨_, rfl, (hsort _).mem_iff.mpr ht, hsort _⟩

end Tinymist.Types
