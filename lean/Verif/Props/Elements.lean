import Verif.Spec.Elements

/-!
# Elements are expected to be what the type of the container says (C186)
-/

namespace Tinymist.Elements

variable {α : Type} [DecidableEq α] {recordOf : Builtin → List (Text × α)}

/-! ## Helpers -/

/-- What has been received on one side. -/
def Receiver.side (r : Receiver α) : Bool → List (Expected α)
  | true => r.lbs
  | false => r.ubs

theorem mem_insert {r : Receiver α} {e x : Expected α} {pol low : Bool} :
    x ∈ (r.insert e (!pol)).side low ↔ x ∈ r.side low ∨ (low = pol ∧ x = e) := by
  unfold Receiver.insert
  cases pol <;> cases low <;> simp only [Bool.not_true, Bool.not_false, if_true, Bool.false_eq_true, if_false, Receiver.side] <;> split <;>
    simp_all [Receiver.side]
  all_goals grind

theorem mem_fold {x : Expected α} {pol low : Bool} : ∀ (fs : List (Text × α)) (r : Receiver α),
    x ∈ (fs.foldl (fun r f => r.insert (.field f.1 f.2) (!pol)) r).side low ↔ x ∈ r.side low ∨ (low = pol ∧ ∃ f ∈ fs, x = .field f.1 f.2)
  | [], r => by simp
  | f :: fs, r => by
    rw [List.foldl_cons, mem_fold fs, mem_insert]
    simp only [List.mem_cons, exists_eq_or_imp]
    grind

theorem mem_shape {fs : List (Text × α)} {f : Text × α} : f ∈ shape fs ↔ f ∈ fs := (List.mergeSort_perm _ _).mem_iff

theorem zip_map (l : List (Text × α)) : (l.map Prod.fst).zip (l.map Prod.snd) = l := by
  induction l with
  | nil => rfl
  | cons a l ih => simp [ih]

theorem named_dict {fs : List (Text × α)} (hd : Distinct fs) {n : Text} {t : α} : (dictCons fs).named n = some t ↔ (n, t) ∈ fs := by
  have hn : ((shape fs).map Prod.fst).Nodup := ((List.mergeSort_perm fs _).map Prod.fst).nodup_iff.2 hd
  rw [← mem_shape]
  unfold Sig.named dictCons
  simp only [Nat.add_zero]
  revert hn
  generalize shape fs = l
  intro hn
  induction l with
  | nil => simp
  | cons a l ih =>
    obtain ⟨x, y⟩ := a
    rw [List.map_cons, List.nodup_cons] at hn
    have ih := ih hn.2
    simp only [List.map_cons, List.findIdx?_cons]
    by_cases h : x = n
    · subst h
      simp only [beq_self_eq_true, if_true, Option.bind_some, List.getElem?_cons_zero, Option.some.injEq, List.mem_cons, Prod.mk.injEq, true_and]
      constructor
      · intro h; exact .inl h.symm
      · rintro (h | h)
        · exact h.symm
        · exact absurd (List.mem_map.2 ⟨_, h, rfl⟩) hn.1
    · have h' : (x == n) = false := by simpa using h
      have h2 : (n, t) ∈ (x, y) :: l ↔ (n, t) ∈ l := by
        rw [List.mem_cons]
        constructor
        · rintro (h1 | h1)
          · cases h1
            exact absurd rfl h
          · exact h1
        · exact .inr
      refine Iff.trans ?_ (Iff.trans ih h2.symm)
      rw [h', if_neg Bool.false_ne_true]
      cases (l.map Prod.fst).findIdx? (· == n) <;> simp

/-- What a signature adds. -/
def Adds (target : Target) (s : Sig α) (x : Expected α) : Prop :=
  (∃ n t, target = .named (some n) ∧ s.named n = some t ∧ x = .type t) ∨
    ∃ sp n, target = .positional sp n false ∧ ((∃ t, s.posOrRest n = some t ∧ x = .type t) ∨ ∃ f ∈ s.namedParams, x = .field f.1 f.2)

theorem mem_check {target : Target} {s : Sig α} {pol low : Bool} {r : Receiver α} {x : Expected α} :
    x ∈ (check target s pol r).side low ↔ x ∈ r.side low ∨ (low = pol ∧ Adds target s x) := by
  unfold check Adds
  split
  · simp
  · rename_i n
    split
    · rename_i h; simp [h]
    · rename_i t h
      rw [mem_insert]
      simp [h]
  · rename_i sp n sd
    cases sd with
    | true => simp
    | false =>
      simp only [Bool.false_eq_true, if_false, Nat.zero_add]
      rw [mem_fold]
      split
      · rename_i t h
        rw [mem_insert]
        grind
      · rename_i h
        grind

theorem adds_array {target : Target} {t : α} {x : Expected α} : Adds target (arrayCons t) x ↔ ∃ sp n, target = .positional sp n false ∧ x = .type t := by
  unfold Adds
  simp [arrayCons, Sig.named, Sig.posOrRest, Sig.pos, Sig.namedParams]

theorem tuple_pos (ts : List α) (n : Nat) : (tupleCons ts).posOrRest n = ts[n]? := by
  have : (tupleCons ts).posOrRest n = (if n < ts.length then ts[n]? else none).or none := rfl
  rw [this, Option.or_none]
  split
  · rfl
  · rename_i h
    exact (List.getElem?_eq_none (by omega)).symm

theorem adds_tuple {target : Target} {ts : List α} {x : Expected α} :
    Adds target (tupleCons ts) x ↔ ∃ sp n t, target = .positional sp n false ∧ ts[n]? = some t ∧ x = .type t := by
  unfold Adds
  have h1 : ∀ n, (tupleCons ts).named n = none := fun n => rfl
  have h2 : (tupleCons ts).namedParams = [] := rfl
  simp only [tuple_pos, h1, h2]
  grind

theorem adds_dict {target : Target} {fs : List (Text × α)} (hd : Distinct fs) {x : Expected α} :
    Adds target (dictCons fs) x ↔ (∃ n t, target = .named (some n) ∧ (n, t) ∈ fs ∧ x = .type t) ∨
      ∃ sp n y t, target = .positional sp n false ∧ (y, t) ∈ fs ∧ x = .field y t := by
  unfold Adds
  simp only [named_dict hd]
  have h1 : ∀ n, (dictCons fs).posOrRest n = none := fun n => by simp [dictCons, Sig.posOrRest, Sig.pos]
  have h2 : (dictCons fs).namedParams = shape fs := by
    simp only [dictCons, Sig.namedParams, List.drop_zero]
    exact zip_map _
  simp only [h1, h2, reduceCtorEq, false_and, exists_false, false_or, mem_shape]
  constructor
  · rintro (h | ⟨sp, n, h, ⟨y, t⟩, h3, h4⟩)
    · exact .inl h
    · exact .inr ⟨sp, n, y, t, h, h3, h4⟩
  · rintro (h | ⟨sp, n, y, t, h, h3, h4⟩)
    · exact .inl h
    · exact .inr ⟨sp, n, h, ⟨y, t⟩, h3, h4⟩

theorem arrays_iff (a : Around) : (surfaceOf a).arrays = true ↔ MayBeArray a := by
  cases a with
  | array n => cases n <;> simp [surfaceOf, Surface.arrays, MayBeArray]
  | _ => simp [surfaceOf, Surface.arrays, MayBeArray]

theorem dicts_iff (a : Around) : (surfaceOf a).dicts = true ↔ MayBeDict a := by
  cases a with
  | array n => cases n <;> simp [surfaceOf, Surface.dicts, MayBeDict]
  | _ => simp [surfaceOf, Surface.dicts, MayBeDict]

/-- All dictionaries that a type may be have fields of different names. -/
def Fine (recordOf : Builtin → List (Text × α)) (t : Ty α) : Prop := ∀ low s fs, Among t low s → HasFields recordOf s fs → Distinct fs

/-- What a type wants in itself or one of the types that it may be. -/
def Gets (recordOf : Builtin → List (Text × α)) (a : Around) (target : Target) (t : Ty α) (low : Bool) (x : Expected α) : Prop :=
  ∃ s, Among t low s ∧ Wants recordOf a target s x

/-- Types that are not made up of others. -/
theorem gets_self {t : Ty α} (h : ∀ low s, Among t low s → low = false ∧ s = t) {a : Around} {target : Target} {low : Bool} {x : Expected α} :
    Gets recordOf a target t low x ↔ low = false ∧ Wants recordOf a target t x := by
  constructor
  · rintro ⟨s, h1, h2⟩
    obtain ⟨rfl, rfl⟩ := h _ _ h1
    exact ⟨rfl, h2⟩
  · rintro ⟨rfl, h2⟩
    exact ⟨t, .self, h2⟩

theorem wants_array {a : Around} {target : Target} {t : α} {x : Expected α} :
    Wants recordOf a target (.array t) x ↔ MayBeArray a ∧ Adds target (arrayCons t) x := by
  rw [adds_array]
  constructor
  · intro h
    cases h with
    | elem h => exact ⟨h, _, _, rfl, rfl⟩
    | field _ h => cases h
    | value _ h => cases h
  · rintro ⟨h, sp, n, rfl, rfl⟩
    exact .elem h

theorem wants_tuple {a : Around} {target : Target} {ts : List α} {x : Expected α} :
    Wants recordOf a target (.tuple ts) x ↔ MayBeArray a ∧ Adds target (tupleCons ts) x := by
  rw [adds_tuple]
  constructor
  · intro h
    cases h with
    | item h h1 => exact ⟨h, _, _, _, rfl, h1, rfl⟩
    | field _ h => cases h
    | value _ h => cases h
  · rintro ⟨h, sp, n, t, rfl, h1, rfl⟩
    exact .item h h1

theorem wants_fields {a : Around} {target : Target} {s : Ty α} {fs : List (Text × α)} (hs : HasFields recordOf s fs) (hd : Distinct fs)
    {x : Expected α} : Wants recordOf a target s x ↔ MayBeDict a ∧ Adds target (dictCons fs) x := by
  rw [adds_dict hd]
  have hu : ∀ gs, HasFields recordOf s gs → gs = fs := by
    intro gs hg
    cases hs <;> cases hg <;> rfl
  constructor
  · intro h
    cases h with
    | elem => cases hs
    | item => cases hs
    | field h1 h2 h3 => cases hu _ h2; exact ⟨h1, .inr ⟨_, _, _, _, rfl, h3, rfl⟩⟩
    | value h1 h2 h3 => cases hu _ h2; exact ⟨h1, .inl ⟨_, _, rfl, h3, rfl⟩⟩
  · rintro ⟨h, ⟨n, t, rfl, h1, rfl⟩ | ⟨sp, n, y, t, rfl, h1, rfl⟩⟩
    · exact .value h hs h1
    · exact .field h hs h1

theorem mem_if {target : Target} {g : Sig α} {pol low c : Bool} {r : Receiver α} {x : Expected α} {t : Ty α} {a : Around}
    (ht : ∀ low s, Among t low s → low = false ∧ s = t) (hw : Wants recordOf a target t x ↔ c = true ∧ Adds target g x) :
    x ∈ (if c then check target g pol r else r).side low ↔ x ∈ r.side low ∨ Gets recordOf a target t (low ^^ pol) x := by
  rw [gets_self ht, hw]
  cases c with
  | false => simp
  | true =>
    rw [if_pos rfl, mem_check]
    cases low <;> cases pol <;> simp

mutual
theorem mem_surface {a : Around} {target : Target} {x : Expected α} {low : Bool} : ∀ (t : Ty α) (pol : Bool) (r : Receiver α), Fine recordOf t →
    (x ∈ (surface recordOf (surfaceOf a) target t pol r).side low ↔ x ∈ r.side low ∨ Gets recordOf a target t (low ^^ pol) x)
  | .builtin b, pol, r, hf => by
    rw [surface]
    refine mem_if (by rintro _ _ ⟨⟩; exact ⟨rfl, rfl⟩) ?_
    rw [dicts_iff]
    exact wants_fields .builtin (hf _ _ _ .self .builtin)
  | .array t, pol, r, hf => by
    rw [surface]
    refine mem_if (by rintro _ _ ⟨⟩; exact ⟨rfl, rfl⟩) ?_
    rw [arrays_iff]
    exact wants_array
  | .tuple ts, pol, r, hf => by
    rw [surface]
    refine mem_if (by rintro _ _ ⟨⟩; exact ⟨rfl, rfl⟩) ?_
    rw [arrays_iff]
    exact wants_tuple
  | .dict fs, pol, r, hf => by
    rw [surface]
    refine mem_if (by rintro _ _ ⟨⟩; exact ⟨rfl, rfl⟩) ?_
    rw [dicts_iff]
    exact wants_fields .dict (hf _ _ _ .self .dict)
  | .param t, pol, r, hf => by
    rw [surface, mem_surface t pol r fun low s fs h => hf low s fs (.param h)]
    have : ∀ l, Gets recordOf a target t l x ↔ Gets recordOf a target (.param t) l x := by
      intro l
      constructor
      · rintro ⟨s, h1, h2⟩
        exact ⟨s, .param h1, h2⟩
      · rintro ⟨s, h1, h2⟩
        cases h1 with
        | self => cases h2 with
          | field _ h _ => cases h
          | value _ h _ => cases h
        | param h1 => exact ⟨s, h1, h2⟩
    rw [this]
  | .union ts, pol, r, hf => by
    rw [surface, mem_surfaces ts pol r fun t ht low s fs h => hf low s fs (.union ht h)]
    have : ∀ l, (∃ t ∈ ts, Gets recordOf a target t l x) ↔ Gets recordOf a target (.union ts) l x := by
      intro l
      constructor
      · rintro ⟨t, ht, s, h1, h2⟩
        exact ⟨s, .union ht h1, h2⟩
      · rintro ⟨s, h1, h2⟩
        cases h1 with
        | self => cases h2 with
          | field _ h _ => cases h
          | value _ h _ => cases h
        | union ht h1 => exact ⟨_, ht, s, h1, h2⟩
    rw [this]
  | .bounds ubs lbs, pol, r, hf => by
    rw [surface, mem_surfaces lbs (!pol) _ fun t ht low s fs h => hf _ s fs (.lower ht h),
      mem_surfaces ubs pol r fun t ht low s fs h => hf low s fs (.upper ht h)]
    have : ∀ l, ((∃ t ∈ ubs, Gets recordOf a target t l x) ∨ ∃ t ∈ lbs, Gets recordOf a target t (!l) x) ↔
        Gets recordOf a target (.bounds ubs lbs) l x := by
      intro l
      constructor
      · rintro (⟨t, ht, s, h1, h2⟩ | ⟨t, ht, s, h1, h2⟩)
        · exact ⟨s, .upper ht h1, h2⟩
        · have := Among.lower (ubs := ubs) ht h1
          rw [Bool.not_not] at this
          exact ⟨s, this, h2⟩
      · rintro ⟨s, h1, h2⟩
        cases h1 with
        | self => cases h2 with
          | field _ h _ => cases h
          | value _ h _ => cases h
        | upper ht h1 => exact .inl ⟨_, ht, s, h1, h2⟩
        | lower ht h1 => exact .inr ⟨_, ht, s, by rw [Bool.not_not]; exact h1, h2⟩
    rw [← this, or_assoc]
    cases low <;> cases pol <;> rfl
  | .other, pol, r, hf => by
    rw [surface]
    constructor
    · exact .inl
    · rintro (h | ⟨s, h1, h2⟩)
      · exact h
      · revert h1
        generalize (low ^^ pol) = l
        intro h1
        cases h1
        cases h2 with
        | field _ h _ => cases h
        | value _ h _ => cases h

theorem mem_surfaces {a : Around} {target : Target} {x : Expected α} {low : Bool} : ∀ (ts : List (Ty α)) (pol : Bool) (r : Receiver α),
    (∀ t ∈ ts, Fine recordOf t) →
    (x ∈ (surfaces recordOf (surfaceOf a) target ts pol r).side low ↔ x ∈ r.side low ∨ ∃ t ∈ ts, Gets recordOf a target t (low ^^ pol) x)
  | [], pol, r, hf => by
    rw [surfaces]
    simp
  | t :: ts, pol, r, hf => by
    rw [surfaces, mem_surfaces ts pol _ fun t ht => hf t (List.mem_cons_of_mem _ ht), mem_surface t pol r (hf t (List.mem_cons_self ..)), or_assoc]
    simp only [List.mem_cons, exists_eq_or_imp]
end

theorem insert_nodup {r : Receiver α} {e : Expected α} {pol : Bool} (h : r.lbs.Nodup ∧ r.ubs.Nodup) :
    (r.insert e pol).lbs.Nodup ∧ (r.insert e pol).ubs.Nodup := by
  unfold Receiver.insert
  cases pol with
  | true =>
    rw [if_neg (by decide)]
    split
    · exact h
    · rename_i hn
      exact ⟨h.1, List.nodup_append.2 ⟨h.2, by simp, by grind⟩⟩
  | false =>
    rw [if_pos (by decide)]
    split
    · exact h
    · rename_i hn
      exact ⟨List.nodup_append.2 ⟨h.1, by simp, by grind⟩, h.2⟩

theorem fold_nodup {pol : Bool} : ∀ (fs : List (Text × α)) (r : Receiver α), r.lbs.Nodup ∧ r.ubs.Nodup →
    (fs.foldl (fun r f => r.insert (.field f.1 f.2) pol) r).lbs.Nodup ∧ (fs.foldl (fun r f => r.insert (.field f.1 f.2) pol) r).ubs.Nodup
  | [], r, h => h
  | f :: fs, r, h => fold_nodup fs _ (insert_nodup h)

theorem check_nodup {target : Target} {g : Sig α} {pol : Bool} {r : Receiver α} (h : r.lbs.Nodup ∧ r.ubs.Nodup) :
    (check target g pol r).lbs.Nodup ∧ (check target g pol r).ubs.Nodup := by
  unfold check
  split
  · exact h
  · split
    · exact h
    · exact insert_nodup h
  · split
    · exact h
    · refine fold_nodup _ _ ?_
      split
      · exact insert_nodup h
      · exact h

mutual
theorem surface_nodup {k : Surface} {target : Target} : ∀ (t : Ty α) (pol : Bool) (r : Receiver α), r.lbs.Nodup ∧ r.ubs.Nodup →
    (surface recordOf k target t pol r).lbs.Nodup ∧ (surface recordOf k target t pol r).ubs.Nodup
  | .builtin b, pol, r, h => by rw [surface]; split; exact check_nodup h; exact h
  | .array t, pol, r, h => by rw [surface]; split; exact check_nodup h; exact h
  | .tuple ts, pol, r, h => by rw [surface]; split; exact check_nodup h; exact h
  | .dict fs, pol, r, h => by rw [surface]; split; exact check_nodup h; exact h
  | .param t, pol, r, h => by rw [surface]; exact surface_nodup t pol r h
  | .union ts, pol, r, h => by rw [surface]; exact surfaces_nodup ts pol r h
  | .bounds ubs lbs, pol, r, h => by rw [surface]; exact surfaces_nodup lbs _ _ (surfaces_nodup ubs pol r h)
  | .other, pol, r, h => by rw [surface]; exact h

theorem surfaces_nodup {k : Surface} {target : Target} : ∀ (ts : List (Ty α)) (pol : Bool) (r : Receiver α), r.lbs.Nodup ∧ r.ubs.Nodup →
    (surfaces recordOf k target ts pol r).lbs.Nodup ∧ (surfaces recordOf k target ts pol r).ubs.Nodup
  | [], pol, r, h => by rw [surfaces]; exact h
  | t :: ts, pol, r, h => by rw [surfaces]; exact surfaces_nodup ts pol _ (surface_nodup t pol r h)
end

/-! ## The theorems -/

/-- What is expected is exactly what one of the types wants that the container may be: as an upper bound those that are met through no or an
even number of lower bounds, as a lower bound the others. -/
theorem expected_iff {a : Around} {target : Target} {t : Ty α} (hf : ∀ low s fs, Among t low s → HasFields recordOf s fs → Distinct fs)
    (x : Expected α) :
    (x ∈ (expected recordOf a target t).ubs ↔ ∃ s, Among t false s ∧ Wants recordOf a target s x) ∧
      (x ∈ (expected recordOf a target t).lbs ↔ ∃ s, Among t true s ∧ Wants recordOf a target s x) := by
  constructor
  · have h := mem_surface (a := a) (target := target) (x := x) (low := false) t false ⟨[], []⟩ hf
    have h0 : x ∉ (⟨[], []⟩ : Receiver α).side false := fun h => (nomatch h)
    exact h.trans (by rw [or_iff_right h0]; rfl)
  · have h := mem_surface (a := a) (target := target) (x := x) (low := true) t false ⟨[], []⟩ hf
    have h0 : x ∉ (⟨[], []⟩ : Receiver α).side true := fun h => (nomatch h)
    exact h.trans (by rw [or_iff_right h0]; rfl)

/-- Nothing is expected twice. -/
theorem expected_once (a : Around) (target : Target) (t : Ty α) :
    (expected recordOf a target t).lbs.Nodup ∧ (expected recordOf a target t).ubs.Nodup :=
  surface_nodup t false ⟨[], []⟩ ⟨List.nodup_nil, List.nodup_nil⟩

/-- Nothing is expected of what is spread, nor of the value behind a key that is not written as a name. -/
theorem nothing_expected {a : Around} {target : Target} {t : Ty α} (hf : ∀ low s fs, Among t low s → HasFields recordOf s fs → Distinct fs)
    (h : target = .named none ∨ ∃ sp n, target = .positional sp n true) :
    (expected recordOf a target t).ubs = [] ∧ (expected recordOf a target t).lbs = [] := by
  have hw : ∀ s x, ¬ Wants recordOf a target s x := by
    intro s x hx
    rcases h with rfl | ⟨sp, n, rfl⟩ <;> cases hx
  constructor
  · refine List.eq_nil_iff_forall_not_mem.2 fun x hx => ?_
    obtain ⟨s, -, h1⟩ := (expected_iff hf x).1.1 hx
    exact hw s x h1
  · refine List.eq_nil_iff_forall_not_mem.2 fun x hx => ?_
    obtain ⟨s, -, h1⟩ := (expected_iff hf x).2.1 hx
    exact hw s x h1

/-! ## Where it is not so -/

/-- What is spread before an element is not counted: of the element behind it, in `(..(1, 2), x)` for a tuple, what the first one should be is
expected still. -/
theorem spread_uncounted (sp : Nat) (t : α) (ts : List α) (n : Nat) :
    (expected recordOf (.array n) (.positional sp 0 false) (.tuple (t :: ts))).ubs = [.type t] := by
  cases n <;> rfl

/-- The key of a value may be a string: nothing is expected then, though the type is known. -/
theorem string_key (fs : List (Text × α)) : (expected recordOf .dict (.named none) (.dict fs)).ubs = [] := rfl

/-! ## Examples -/

/-- A stroke, something else or a pair, or as a lower bound the parameter of an array. -/
def sample : Ty Nat := .bounds [.union [.builtin .stroke, .other, .tuple [3, 4]]] [.param (.array 5)]

/-- A stroke has two fields. -/
def fields : Builtin → List (Text × Nat)
  | .stroke => [(['p'], 1), (['c'], 2)]
  | _ => []

/-- The fields are distinct. -/
theorem sample_distinct : ∀ low s fs, Among sample low s → HasFields fields s fs → Distinct fs := by
  intro low s fs h1 h2
  cases h2 with
  | @builtin b => unfold Distinct; cases b <;> decide
  | dict =>
    exfalso
    cases h1 with
    | upper h h1 =>
      cases List.mem_singleton.1 h
      cases h1 with
      | union h h1 =>
        simp only [List.mem_cons, List.not_mem_nil, or_false] at h
        rcases h with rfl | rfl | rfl <;> cases h1
    | lower h h1 =>
      cases List.mem_singleton.1 h
      cases h1 with
      | param h1 => cases h1

/-- In `(|)` a field of the stroke is expected, and the first of the pair, and an element of the array as a lower bound. -/
example :
    let r := expected fields .parenthesized (.positional 0 0 false) sample
    .field ['c'] 2 ∈ r.ubs ∧ .type 3 ∈ r.ubs ∧ .type 5 ∈ r.lbs :=
  ⟨(expected_iff sample_distinct _).1.2 ⟨_, .upper (.head _) (.union (.head _) .self), .field trivial .builtin (.tail _ (.head _))⟩,
    (expected_iff sample_distinct _).1.2 ⟨_, .upper (.head _) (.union (.tail _ (.tail _ (.head _))) .self), .item trivial rfl⟩,
    (expected_iff sample_distinct _).2.2 ⟨_, .lower (.head _) (.param .self), .elem trivial⟩⟩

end Tinymist.Elements
