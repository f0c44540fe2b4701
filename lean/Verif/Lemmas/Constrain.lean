import Verif.Spec.Constrain
import Verif.Props.TyCall

/-! # Lemmas about what is learned of types -/

namespace Tinymist.Constrain

open Types

/-! ## Meeting -/

theorem stream_get (pos : List Ty) (rest : Option Ty) (n i : Nat) :
    (stream pos rest n)[i]? = if i < n then (if i < pos.length then pos[i]? else rest) else none := by
  unfold stream
  cases rest with
  | none =>
    simp only [List.getElem?_take]
    split
    · split
      · rfl
      · rename_i h; exact List.getElem?_eq_none (by omega)
    · rfl
  | some r =>
    simp only [List.getElem?_take]
    split
    · rename_i hn
      split
      · rename_i h; exact List.getElem?_append_left h
      · rename_i h
        rw [List.getElem?_append_right (by omega), List.getElem?_replicate, if_pos (by omega)]
    · rfl

theorem nth_eq (s : SigTy) (i : Nat) : nth s i = if i < s.positional.length then s.positional[i]? else s.rest := rfl

theorem rest_some {s : SigTy} (h : s.rest.isSome = true) : s.shape.right = true := by
  unfold SigTy.rest at h
  split at h
  · assumption
  · cases h

theorem mem_common {s a : SigTy} (hs : s.shape.names.Pairwise (· < ·)) (ha : a.shape.names.Pairwise (· < ·)) (p q : Ty) :
    (p, q) ∈ common s a ↔ ∃ x i j, s.shape.names[i]? = some x ∧ a.shape.names[j]? = some x ∧ s.inputs[i + s.shape.start]? = some p ∧
      a.inputs[j + a.shape.start]? = some q := by
  unfold common
  rw [List.mem_filterMap]
  constructor
  · rintro ⟨⟨i, j⟩, hm, he⟩
    rw [mem_intersect _ _ (numbered_sorted hs) (numbered_sorted ha)] at hm
    obtain ⟨x, h1, h2⟩ := hm
    rw [mem_numbered] at h1 h2
    simp only at he
    split at he
    · rename_i l r hl hr
      cases he
      exact ⟨x, i, j, h1, h2, hl, hr⟩
    · cases he
  · rintro ⟨x, i, j, h1, h2, h3, h4⟩
    refine ⟨(i, j), ?_, ?_⟩
    · rw [mem_intersect _ _ (numbered_sorted hs) (numbered_sorted ha)]
      exact ⟨x, mem_numbered.mpr h1, mem_numbered.mpr h2⟩
    · simp only [h3, h4]

theorem mem_dictCommon {ns ms : List Nat} {ts us : List Ty} (hn : ns.Pairwise (· < ·)) (hm : ms.Pairwise (· < ·)) (p q : Ty) :
    (p, q) ∈ dictCommon ns ts ms us ↔ ∃ x i j : Nat, ns[i]? = some x ∧ ms[j]? = some x ∧ ts[i]? = some p ∧ us[j]? = some q := by
  unfold dictCommon
  rw [List.mem_filterMap]
  constructor
  · rintro ⟨⟨i, j⟩, hmm, he⟩
    rw [mem_intersect _ _ (numbered_sorted hn) (numbered_sorted hm)] at hmm
    obtain ⟨x, h1, h2⟩ := hmm
    rw [mem_numbered] at h1 h2
    simp only at he
    split at he
    · rename_i l r hl hr
      cases he
      exact ⟨x, i, j, h1, h2, hl, hr⟩
    · cases he
  · rintro ⟨x, i, j, h1, h2, h3, h4⟩
    refine ⟨(i, j), ?_, ?_⟩
    · rw [mem_intersect _ _ (numbered_sorted hn) (numbered_sorted hm)]
      exact ⟨x, mem_numbered.mpr h1, mem_numbered.mpr h2⟩
    · simp only [h3, h4]

theorem mem_zip_iff {a b : List Ty} {p q : Ty} : (p, q) ∈ a.zip b ↔ ∃ i : Nat, a[i]? = some p ∧ b[i]? = some q := by
  rw [List.mem_iff_getElem?]
  simp only [List.getElem?_zip_eq_some]

/-- The pairs that are gone through are those of what meets. -/
theorem mem_matches {s a : SigTy} (hs : s.shape.names.Pairwise (· < ·)) (ha : a.shape.names.Pairwise (· < ·)) (p q : Ty) :
    (p, q) ∈ s.matches a [] ↔ Meets s a p q := by
  unfold SigTy.matches
  simp only [List.map_nil, List.sum_nil, Nat.zero_add, List.reverse_nil, List.flatMap_nil, List.nil_append, List.mem_append]
  rw [mem_common hs ha, mem_zip_iff]
  constructor
  · rintro (⟨i, h1, h2⟩ | ⟨x, i, j, h1, h2, h3, h4⟩)
    · rw [stream_get] at h1 h2
      by_cases hi : i < max s.positional.length a.positional.length + (if (s.rest.isSome && a.rest.isSome) = true then 1 else 0)
      · rw [if_pos hi] at h1 h2
        refine .place i p q h1 h2 ?_
        by_cases hr : (s.rest.isSome && a.rest.isSome) = true
        · rw [if_pos hr] at hi
          rw [Bool.and_eq_true] at hr
          by_cases c1 : i < s.positional.length
          · exact .inl c1
          · by_cases c2 : i < a.positional.length
            · exact .inr (.inl c2)
            · refine .inr (.inr ⟨fun j hj => ?_, rest_some hr.1, rest_some hr.2⟩)
              show j < s.positional.length ∨ j < a.positional.length
              omega
        · rw [if_neg hr] at hi
          show i < s.positional.length ∨ i < a.positional.length ∨ _
          omega
      · rw [if_neg hi] at h1; cases h1
    · exact .name x i j p q h1 h2 h3 h4
  · rintro (⟨i, _, _, h1, h2, h3⟩ | ⟨x, i, j, _, _, h1, h2, h3, h4⟩)
    · left
      refine ⟨i, ?_⟩
      rw [stream_get, stream_get]
      rw [nth_eq] at h1 h2
      have hi : i < max s.positional.length a.positional.length + (if s.rest.isSome && a.rest.isSome then 1 else 0) := by
        rcases h3 with h3 | h3 | ⟨h3, -, -⟩
        · have : i < s.positional.length := h3
          omega
        · have : i < a.positional.length := h3
          omega
        · by_cases c1 : i < s.positional.length
          · omega
          · by_cases c2 : i < a.positional.length
            · omega
            · rw [if_neg c1] at h1
              rw [if_neg c2] at h2
              rw [h1, h2]
              simp only [Option.isSome_some, Bool.and_self, if_true]
              by_cases h0 : i = 0
              · omega
              · have : i - 1 < s.positional.length ∨ i - 1 < a.positional.length := h3 (i - 1) (by omega)
                omega
      rw [if_pos hi, if_pos hi]
      exact ⟨h1, h2⟩
    · exact .inr ⟨x, i, j, h1, h2, h3, h4⟩

/-! ## Steps -/

theorem sigIn_iff {t : Ty} {s : SigTy} : IsFunction t s ↔ ∃ sh b ts, t = .node (.sig .func sh b) ts ∧ s = sigIn sh b ts ∧ (b = true → ts ≠ []) := by
  constructor
  · rintro (⟨sh, ts, b⟩ | ⟨sh, ts⟩)
    · exact ⟨sh, true, ts ++ [b], rfl, by simp [sigIn], by simp⟩
    · exact ⟨sh, false, ts, rfl, by simp [sigIn], by simp⟩
  · rintro ⟨sh, b, ts, rfl, rfl, h⟩
    cases b with
    | true =>
      rcases List.eq_nil_or_concat ts with rfl | ⟨r, x, rfl⟩
      · exact absurd rfl (h rfl)
      · rw [List.concat_eq_append]
        simp only [sigIn, if_true, List.dropLast_concat, List.getLast?_append, List.getLast?_singleton, Option.some_or]
        exact .body sh r x
    | false => exact .plain sh ts

/-- What a step leads to. -/
def Leads (lib : Lib) (f : Fact) : Step → Prop
  | .nothing => False
  | .upper v b => f = .atMost v b
  | .lower v b => f = .atLeast v b
  | .each ps => ∃ p ∈ ps, Tells lib p.1 p.2 f
  | .call s a => ∃ p ∈ s.matches a [], Tells lib p.2 p.1 f

theorem allInOrder_mem {ts : List Ty} : AllInOrder ts ↔ ∀ t ∈ ts, InOrder t := by
  induction ts with
  | nil => simp [AllInOrder]
  | cons t ts ih => rw [AllInOrder, ih]; simp

theorem inOrder_sub {h : Head} {ts : List Ty} (ho : InOrder (.node h ts)) : ∀ t ∈ ts, InOrder t := by
  rw [← allInOrder_mem]
  cases h <;> first | exact ho | exact ho.2

theorem sigIn_inputs (s : Shape) (b : Bool) (ts : List Ty) : ∀ t ∈ (sigIn s b ts).inputs, t ∈ ts := by
  unfold sigIn
  split
  · exact fun t h => List.dropLast_subset _ h
  · exact fun t h => h

theorem sigIn_shape (s : Shape) (b : Bool) (ts : List Ty) : (sigIn s b ts).shape = s := by
  unfold sigIn; split <;> rfl

theorem tells_ne {lib : Lib} {l r : Ty} {f : Fact} (h : Tells lib l r f) : l ≠ r := by
  cases h with
  | atMost v r h => rintro rfl; exact h ⟨v, rfl⟩
  | atLeast v l h => rintro rfl; exact h ⟨v, rfl⟩
  | any ts r t f h1 h2 => exact Ne.symm h2
  | alternative l t ts f h1 h2 => rintro rfl; exact h2 ⟨ts, rfl⟩
  | written => simp
  | read => simp
  | field _ _ _ _ _ _ _ _ _ _ h => exact h
  | operand op x y f h hn => simpa using hn
  | typeOf => simp
  | isTypeOf => simp
  | function _ _ _ _ _ _ _ h => exact h

theorem dict_tells {lib : Lib} {ns ms : List Nat} {ts us : List Ty} {f : Fact} :
    Tells lib (.node (.dict ns) ts) (.node (.dict ms) us) f ↔ Ty.node (.dict ns) ts ≠ .node (.dict ms) us ∧
      ∃ (x i j : Nat) (t u : Ty), ns[i]? = some x ∧ ms[j]? = some x ∧ ts[i]? = some t ∧ us[j]? = some u ∧ Tells lib t u f := by
  constructor
  · intro h
    cases h with
    | field _ _ _ _ x i j t u _ hn h1 h2 h3 h4 h5 => exact ⟨hn, x, i, j, t, u, h1, h2, h3, h4, h5⟩
    | function _ _ _ _ _ _ _ _ h => cases h
  · rintro ⟨hn, x, i, j, t, u, h1, h2, h3, h4, h5⟩
    exact .field _ _ _ _ x i j t u _ hn h1 h2 h3 h4 h5

theorem stepDict_leads {lib : Lib} {ns ms : List Nat} {ts us : List Ty} {f : Fact} (hn : ns.Pairwise (· < ·)) (hm : ms.Pairwise (· < ·)) :
    Leads lib f (stepDict (.node (.dict ns) ts) (.node (.dict ms) us) ns ts ms us) ↔ Tells lib (.node (.dict ns) ts) (.node (.dict ms) us) f := by
  rw [dict_tells]
  unfold stepDict
  split
  · rename_i h
    exact ⟨fun h => h.elim, fun h' => absurd h h'.1⟩
  · rename_i h
    show (∃ p ∈ dictCommon ns ts ms us, _) ↔ _
    constructor
    · rintro ⟨⟨p, q⟩, hp, ht⟩
      obtain ⟨x, i, j, h1, h2, h3, h4⟩ := (mem_dictCommon hn hm p q).mp hp
      exact ⟨h, x, i, j, p, q, h1, h2, h3, h4, ht⟩
    · rintro ⟨-, x, i, j, t, u, h1, h2, h3, h4, h5⟩
      exact ⟨(t, u), (mem_dictCommon hn hm t u).mpr ⟨x, i, j, h1, h2, h3, h4⟩, h5⟩

theorem not_short_dict (lib : Lib) (ns : List Nat) (ts : List Ty) : shortOf lib (.node (.dict ns) ts) = none := rfl

/-- What an arm leads to is what is told, for types that are not variables and not unions, and of which none may be written as the other. -/
theorem stepNode_leads {lib : Lib} {l r : Ty} {f : Fact} (hne : l ≠ r) (hl : InOrder l) (hr : InOrder r) (vl : ¬ IsVar l) (vr : ¬ IsVar r)
    (ul : ¬ IsUnion l) (ur : ¬ IsUnion r) (sl : shortOf lib l = none) (sr : shortOf lib r = none) :
    Leads lib f (stepNode lib l r) ↔ Tells lib l r f := by
  constructor
  · intro h
    unfold stepNode at h
    split at h
    · rename_i ns ts ms us
      have := (stepDict_leads (lib := lib) (f := f) (ts := ts) (us := us) hl.1 hr.1).mp
      unfold stepDict at this
      rw [if_neg hne] at this
      exact this h
    · split at h
      · rename_i a x b y e
        subst e
        obtain ⟨p, hp, ht⟩ := h
        simp at hp
        subst hp
        exact .operand a x y f ht (by rintro rfl; exact hne rfl)
      · exact h.elim
    · split at h
      · rename_i a x k e
        obtain ⟨rfl, ht⟩ := e
        obtain ⟨p, hp, hh⟩ := h
        simp at hp
        subst hp
        exact .typeOf x k f ht hh
      · exact h.elim
    · split at h
      · rename_i k b y e
        obtain ⟨rfl, ht⟩ := e
        obtain ⟨p, hp, hh⟩ := h
        simp at hp
        subst hp
        exact .isTypeOf y k f ht hh
      · exact h.elim
    · rename_i s b ts s' b' ts'
      obtain ⟨⟨p, q⟩, hp, hh⟩ := h
      rw [mem_matches (by rw [sigIn_shape]; exact hl.1.1) (by rw [sigIn_shape]; exact hr.1.1)] at hp
      refine .function _ _ (sigIn s b ts) (sigIn s' b' ts') p q f hne ?_ ?_ hp hh
      · exact sigIn_iff.mpr ⟨s, b, ts, rfl, rfl, hl.1.2⟩
      · exact sigIn_iff.mpr ⟨s', b', ts', rfl, rfl, hr.1.2⟩
    · exact h.elim
  · intro h
    cases h with
    | atMost v r h => exact absurd ⟨v, rfl⟩ vl
    | atLeast v l h => exact absurd ⟨v, rfl⟩ vr
    | any ts r t f h1 h2 => exact absurd ⟨ts, rfl⟩ ul
    | alternative l t ts f h1 h2 => exact absurd ⟨ts, rfl⟩ ur
    | written ns ts k d f hs => exact absurd (sr.symm.trans hs) (by simp)
    | read ns ts k d f hs => exact absurd (sl.symm.trans hs) (by simp)
    | field ns ms ts us x i j t u f h h1 h2 h3 h4 h5 =>
      have := (stepDict_leads (lib := lib) (f := f) (ts := ts) (us := us) hl.1 hr.1).mpr (.field ns ms ts us x i j t u f h h1 h2 h3 h4 h5)
      unfold stepDict at this
      rw [if_neg hne] at this
      exact this
    | operand op x y f h hn =>
      unfold stepNode
      simp only [if_true]
      exact ⟨(x, y), by simp, h⟩
    | typeOf x k f hk h =>
      unfold stepNode
      simp only [hk, and_self, if_true]
      exact ⟨(x, .leaf k), by simp, h⟩
    | isTypeOf y k f hk h =>
      unfold stepNode
      simp only [hk, and_self, if_true]
      exact ⟨(.leaf k, y), by simp, h⟩
    | function l r s a p q f h hfl hfr hm ht =>
      obtain ⟨s1, b1, ts1, rfl, rfl, -⟩ := sigIn_iff.mp hfl
      obtain ⟨s2, b2, ts2, rfl, rfl, -⟩ := sigIn_iff.mp hfr
      exact ⟨(p, q), (mem_matches (by rw [sigIn_shape]; exact hl.1.1) (by rw [sigIn_shape]; exact hr.1.1) p q).mpr hm, ht⟩

/-- **The step** leads to what is told. -/
theorem step_leads {lib : Lib} (fits : Fits lib) {l r : Ty} {f : Fact} (hl : InOrder l) (hr : InOrder r) :
    Leads lib f (step lib l r) ↔ Tells lib l r f := by
  unfold step
  split
  · rename_i h
    exact ⟨fun h' => h'.elim, fun h' => absurd h (tells_ne h')⟩
  · rename_i hne
    split
    · rename_i v w
      refine ⟨fun h => h.elim, fun h => ?_⟩
      cases h with
      | atMost _ _ h => exact h ⟨w, rfl⟩
      | atLeast _ _ h => exact h ⟨v, rfl⟩
      | function _ _ _ _ _ _ _ _ h => cases h
    · rename_i v hv
      have vr : ¬ IsVar r := fun ⟨w, e⟩ => hv w e
      constructor
      · rintro rfl; exact .atMost v r vr
      · intro h
        cases h with
        | atMost => rfl
        | atLeast w _ h => exact absurd ⟨w, rfl⟩ vr
        | alternative _ _ _ _ h => exact absurd ⟨v, rfl⟩ h
        | function _ _ _ _ _ _ _ _ h => cases h
    · rename_i v hv
      have vl : ¬ IsVar l := fun ⟨w, e⟩ => hv w e
      constructor
      · rintro rfl; exact .atLeast v l vl
      · intro h
        cases h with
        | atMost w _ h => exact absurd ⟨w, rfl⟩ vl
        | atLeast => rfl
        | any _ _ _ _ h => exact absurd ⟨v, rfl⟩ h
        | function _ _ _ _ _ _ _ _ _ h => cases h
    · rename_i ts hv
      have vr : ¬ IsVar r := fun ⟨w, e⟩ => hv w e
      constructor
      · rintro ⟨p, hp, ht⟩
        obtain ⟨t, hm, rfl⟩ := List.mem_map.mp hp
        exact .any ts r t f vr (Ne.symm hne) hm ht
      · intro h
        cases h with
        | atLeast w _ h => exact absurd ⟨w, rfl⟩ vr
        | any _ _ t _ h1 h2 hm ht => exact ⟨(t, r), List.mem_map.mpr ⟨t, hm, rfl⟩, ht⟩
        | alternative _ _ _ _ _ h => exact absurd ⟨ts, rfl⟩ h
        | function _ _ _ _ _ _ _ _ h => cases h
    · rename_i ts hv hu
      have vl : ¬ IsVar l := fun ⟨w, e⟩ => hv w e
      have ul : ¬ IsUnion l := fun ⟨w, e⟩ => hu w e
      constructor
      · rintro ⟨p, hp, ht⟩
        obtain ⟨t, hm, rfl⟩ := List.mem_map.mp hp
        exact .alternative l t ts f vl ul hm ht
      · intro h
        cases h with
        | atMost w _ h => exact absurd ⟨w, rfl⟩ vl
        | any us _ t _ h1 h2 hm ht => exact absurd ⟨us, rfl⟩ ul
        | alternative _ t _ _ _ _ hm ht => exact ⟨(l, t), List.mem_map.mpr ⟨t, hm, rfl⟩, ht⟩
        | function _ _ _ _ _ _ _ _ _ h => cases h
    · rename_i h1 h2 h3 h4 h5
      have vl : ¬ IsVar l := fun ⟨w, e⟩ => by subst e; first | exact h1 w rfl | exact h2 w rfl | exact h3 w rfl | exact h4 w rfl | exact h5 w rfl
      have vr : ¬ IsVar r := fun ⟨w, e⟩ => by subst e; first | exact h1 w rfl | exact h2 w rfl | exact h3 w rfl | exact h4 w rfl | exact h5 w rfl
      have ul : ¬ IsUnion l := fun ⟨w, e⟩ => by subst e; first | exact h1 w rfl | exact h2 w rfl | exact h3 w rfl | exact h4 w rfl | exact h5 w rfl
      have ur : ¬ IsUnion r := fun ⟨w, e⟩ => by subst e; first | exact h1 w rfl | exact h2 w rfl | exact h3 w rfl | exact h4 w rfl | exact h5 w rfl
      unfold stepShort
      cases sr : shortOf lib r with
      | some d =>
        obtain ⟨k, rfl, hk⟩ : ∃ k, r = .leaf (.builtin k) ∧ lib.short k = some d := by
          unfold shortOf at sr
          split at sr
          · exact ⟨_, rfl, sr⟩
          · cases sr
        simp only
        split
        · rename_i ns ts
          rw [dictOf, stepDict_leads hl.1 (fits.order k d hk).1]
          constructor
          · exact .written ns ts k d f hk
          · intro h
            cases h with
            | written _ _ _ d' _ hk' h => rw [hk] at hk'; cases hk'; exact h
            | function _ _ _ _ _ _ _ _ h => cases h
        · rename_i hd
          refine ⟨fun h => h.elim, fun h => ?_⟩
          cases h with
          | atMost w _ h => exact absurd ⟨w, rfl⟩ vl
          | any us _ t _ h1 h2 hm ht => exact absurd ⟨us, rfl⟩ ul
          | written ns ts => exact hd ns ts rfl
          | typeOf x _ _ h => rw [fits.plain k d hk] at h; cases h
          | function _ _ _ _ _ _ _ _ _ h => cases h
      | none =>
        simp only
        cases sl : shortOf lib l with
        | some d =>
          obtain ⟨k, rfl, hk⟩ : ∃ k, l = .leaf (.builtin k) ∧ lib.short k = some d := by
            unfold shortOf at sl
            split at sl
            · exact ⟨_, rfl, sl⟩
            · cases sl
          simp only
          split
          · rename_i ns ts
            rw [dictOf, stepDict_leads (fits.order k d hk).1 hr.1]
            constructor
            · exact .read ns ts k d f hk
            · intro h
              cases h with
              | read _ _ _ d' _ hk' h => rw [hk] at hk'; cases hk'; exact h
              | function _ _ _ _ _ _ _ _ h => cases h
          · rename_i hd
            refine ⟨fun h => h.elim, fun h => ?_⟩
            cases h with
            | atLeast w _ h => exact absurd ⟨w, rfl⟩ vr
            | alternative _ _ us => exact absurd ⟨us, rfl⟩ ur
            | read ns ts => exact hd ns ts rfl
            | isTypeOf y _ _ h => rw [fits.plain k d hk] at h; cases h
            | function _ _ _ _ _ _ _ _ h => cases h
        | none => exact stepNode_leads hne hl hr vl vr ul ur sl sr

/-! ## Depth -/

theorem deep_mem {lib : Lib} {ts : List Ty} : ∀ t ∈ ts, deep lib t ≤ deepList lib ts := by
  induction ts with
  | nil => intro t h; cases h
  | cons a ts ih =>
    intro t h
    rw [deepList]
    rcases List.mem_cons.mp h with rfl | h
    · omega
    · have := ih t h; omega

theorem deepList_le {lib : Lib} {ts : List Ty} {n : Nat} (h : ∀ t ∈ ts, deep lib t ≤ n) : deepList lib ts ≤ n := by
  induction ts with
  | nil => simp [deepList]
  | cons a ts ih =>
    rw [deepList]
    have := ih fun t ht => h t (by simp [ht])
    have := h a (by simp)
    omega

theorem deep_node {lib : Lib} {h : Head} {ts : List Ty} : ∀ t ∈ ts, deep lib t < deep lib (.node h ts) := by
  intro t ht
  have := deep_mem (lib := lib) t ht
  rw [deep.eq_def (lib := lib) (.node h ts)]
  simp only
  omega

/-- How deep the inputs of a call are. -/
def callDeep (lib : Lib) (s a : SigTy) : Nat := deepList lib s.inputs + deepList lib a.inputs

theorem stream_mem {pos : List Ty} {rest : Option Ty} {n : Nat} : ∀ t ∈ stream pos rest n, t ∈ pos ∨ rest = some t := by
  intro t h
  obtain ⟨i, hi⟩ := List.getElem?_of_mem h
  rw [stream_get] at hi
  split at hi
  · split at hi
    · exact .inl (List.mem_of_getElem? hi)
    · exact .inr hi
  · cases hi

theorem positional_mem {s : SigTy} : ∀ t ∈ s.positional, t ∈ s.inputs := fun _ h => List.take_subset _ _ h

theorem rest_mem {s : SigTy} {t : Ty} (h : s.rest = some t) : t ∈ s.inputs := by
  unfold SigTy.rest at h
  split at h
  · exact List.mem_of_getLast? h
  · cases h

theorem common_mem {s a : SigTy} {p q : Ty} (h : (p, q) ∈ common s a) : p ∈ s.inputs ∧ q ∈ a.inputs := by
  unfold common at h
  obtain ⟨x, -, he⟩ := List.mem_filterMap.mp h
  split at he
  · rename_i l r hl hr
    cases he
    exact ⟨List.mem_of_getElem? hl, List.mem_of_getElem? hr⟩
  · cases he

theorem matches_mem {s a : SigTy} {withs : List SigTy} {p q : Ty} (h : (p, q) ∈ s.matches a withs) :
    p ∈ s.inputs ∧ (q ∈ a.inputs ∨ ∃ w ∈ withs, q ∈ w.inputs) := by
  unfold SigTy.matches at h
  simp only [List.mem_append] at h
  rcases h with h | h | h
  · obtain ⟨h1, h2⟩ := List.of_mem_zip h
    constructor
    · rcases stream_mem p h1 with h | h
      · exact positional_mem p h
      · exact rest_mem h
    · rcases stream_mem q h2 with h | h
      · rcases List.mem_append.mp h with h | h
        · obtain ⟨w, hw, hq⟩ := List.mem_flatMap.mp h
          exact .inr ⟨w, List.mem_reverse.mp hw, positional_mem q hq⟩
        · exact .inl (positional_mem q h)
      · exact .inl (rest_mem h)
  · obtain ⟨w, hw, hq⟩ := List.mem_flatMap.mp h
    obtain ⟨h1, h2⟩ := common_mem hq
    exact ⟨h1, .inr ⟨w, List.mem_reverse.mp hw, h2⟩⟩
  · obtain ⟨h1, h2⟩ := common_mem h
    exact ⟨h1, .inl h2⟩

theorem dictCommon_mem {ns ms : List Nat} {ts us : List Ty} {p q : Ty} (h : (p, q) ∈ dictCommon ns ts ms us) : p ∈ ts ∧ q ∈ us := by
  unfold dictCommon at h
  obtain ⟨x, -, he⟩ := List.mem_filterMap.mp h
  split at he
  · rename_i l r hl hr
    cases he
    exact ⟨List.mem_of_getElem? hl, List.mem_of_getElem? hr⟩
  · cases he

/-- A type is part of another one, or of a dictionary that may be written for it. -/
def Part (lib : Lib) (t u : Ty) : Prop :=
  t = u ∨ (∃ h ts, u = .node h ts ∧ t ∈ ts) ∨ (∃ k d x, u = .leaf (.builtin k) ∧ lib.short k = some d ∧ (x, t) ∈ d)

/-- What a step goes on with is in order, smaller, and made of the parts. -/
theorem step_each {lib : Lib} (fits : Fits lib) {l r : Ty} (hl : InOrder l) (hr : InOrder r) {ps : List (Ty × Ty)} (h : step lib l r = .each ps) :
    ∀ p ∈ ps, InOrder p.1 ∧ InOrder p.2 ∧ deep lib p.1 + deep lib p.2 < deep lib l + deep lib r ∧ Part lib p.1 l ∧ Part lib p.2 r := by
  have node : ∀ {h : Head} {ts : List Ty} {t : Ty}, t ∈ ts → Part lib t (.node h ts) := fun ht => .inr (.inl ⟨_, _, rfl, ht⟩)
  have dict : ∀ {k : Nat} {d : List (Nat × Ty)} {t : Ty}, lib.short k = some d → t ∈ d.map (·.2) →
      InOrder t ∧ deep lib t ≤ deep lib (.leaf (.builtin k)) ∧ Part lib t (.leaf (.builtin k)) := by
    intro k d t hk ht
    obtain ⟨⟨x, u⟩, hx, rfl⟩ := List.mem_map.mp ht
    refine ⟨inOrder_sub (fits.order k d hk) _ ht, ?_, .inr (.inr ⟨k, d, x, rfl, hk, hx⟩)⟩
    rw [deep.eq_def (lib := lib) (.leaf (.builtin k))]
    simp only [hk, Option.isSome_some, if_true]
    exact fits.deep k d hk x u hx
  have bi : ∀ {t : Ty} {d : List (Nat × Ty)}, shortOf lib t = some d → ∃ k, t = .leaf (.builtin k) ∧ lib.short k = some d := by
    intro t d h
    unfold shortOf at h
    split at h
    · exact ⟨_, rfl, h⟩
    · cases h
  unfold step at h
  split at h
  · cases h
  · split at h
    · cases h
    · cases h
    · cases h
    · rename_i ts _
      cases h
      intro p hp
      obtain ⟨t, ht, rfl⟩ := List.mem_map.mp hp
      exact ⟨inOrder_sub hl t ht, hr, by have := deep_node (lib := lib) (h := .union) t ht; simp only; omega, node ht, .inl rfl⟩
    · rename_i ts _ _
      cases h
      intro p hp
      obtain ⟨t, ht, rfl⟩ := List.mem_map.mp hp
      exact ⟨hl, inOrder_sub hr t ht, by have := deep_node (lib := lib) (h := .union) t ht; simp only; omega, .inl rfl, node ht⟩
    · unfold stepShort at h
      split at h
      · rename_i d hd
        obtain ⟨k, rfl, hk⟩ := bi hd
        split at h
        · rename_i ns ts
          unfold stepDict at h
          split at h
          · cases h
          · cases h
            rintro ⟨p, q⟩ hp
            obtain ⟨h1, h2⟩ := dictCommon_mem hp
            obtain ⟨g1, g2, g3⟩ := dict hk h2
            exact ⟨inOrder_sub hl p h1, g1, Nat.add_lt_add_of_lt_of_le (deep_node _ h1) g2, node h1, g3⟩
        · cases h
      · split at h
        · rename_i d hd
          obtain ⟨k, rfl, hk⟩ := bi hd
          split at h
          · rename_i ns ts
            unfold stepDict at h
            split at h
            · cases h
            · cases h
              rintro ⟨p, q⟩ hp
              obtain ⟨h1, h2⟩ := dictCommon_mem hp
              obtain ⟨g1, g2, g3⟩ := dict hk h1
              exact ⟨g1, inOrder_sub hr q h2, Nat.add_lt_add_of_le_of_lt g2 (deep_node _ h2), g3, node h2⟩
          · cases h
        · unfold stepNode at h
          split at h
          · rename_i ns ts ms us
            cases h
            rintro ⟨p, q⟩ hp
            obtain ⟨h1, h2⟩ := dictCommon_mem hp
            exact ⟨inOrder_sub hl p h1, inOrder_sub hr q h2, Nat.add_lt_add (deep_node _ h1) (deep_node _ h2), node h1, node h2⟩
          · split at h
            · rename_i a x b y _
              cases h
              intro p hp
              simp at hp
              subst hp
              exact ⟨inOrder_sub hl _ (List.mem_singleton.mpr rfl), inOrder_sub hr _ (List.mem_singleton.mpr rfl), Nat.add_lt_add (deep_node _ (List.mem_singleton.mpr rfl)) (deep_node _ (List.mem_singleton.mpr rfl)), node (List.mem_singleton.mpr rfl), node (List.mem_singleton.mpr rfl)⟩
            · cases h
          · split at h
            · rename_i a x k _
              cases h
              intro p hp
              simp at hp
              subst hp
              exact ⟨inOrder_sub hl _ (List.mem_singleton.mpr rfl), hr, Nat.add_lt_add_of_lt_of_le (deep_node _ (List.mem_singleton.mpr rfl)) (Nat.le_refl _), node (List.mem_singleton.mpr rfl), .inl rfl⟩
            · cases h
          · split at h
            · rename_i k b y _
              cases h
              intro p hp
              simp at hp
              subst hp
              exact ⟨hl, inOrder_sub hr _ (List.mem_singleton.mpr rfl), Nat.add_lt_add_of_le_of_lt (Nat.le_refl _) (deep_node _ (List.mem_singleton.mpr rfl)), .inl rfl, node (List.mem_singleton.mpr rfl)⟩
            · cases h
          · cases h
          · cases h

/-- What a step goes on with for a call. -/
theorem step_call {lib : Lib} {l r : Ty} {s a : SigTy} (h : step lib l r = .call s a) :
    ∃ sh b ts sh' b' ts', l = .node (.sig .func sh b) ts ∧ r = .node (.sig .func sh' b') ts' ∧ s = sigIn sh b ts ∧ a = sigIn sh' b' ts' := by
  unfold step at h
  split at h
  · cases h
  · split at h
    · cases h
    · cases h
    · cases h
    · cases h
    · cases h
    · unfold stepShort at h
      split at h
      · split at h
        · unfold stepDict at h; split at h <;> cases h
        · cases h
      · split at h
        · split at h
          · unfold stepDict at h; split at h <;> cases h
          · cases h
        · unfold stepNode at h
          split at h
          · cases h
          · split at h <;> cases h
          · split at h <;> cases h
          · split at h <;> cases h
          · cases h
            exact ⟨_, _, _, _, _, _, rfl, rfl, rfl, rfl⟩
          · cases h

theorem step_upper {lib : Lib} {l r : Ty} {v : Nat} {b : Ty} (h : step lib l r = .upper v b) : l = .var v ∧ b = r := by
  unfold step at h
  split at h
  · cases h
  · split at h
    · cases h
    · cases h; exact ⟨rfl, rfl⟩
    · cases h
    · cases h
    · cases h
    · unfold stepShort at h
      split at h
      · split at h
        · unfold stepDict at h; split at h <;> cases h
        · cases h
      · split at h
        · split at h
          · unfold stepDict at h; split at h <;> cases h
          · cases h
        · unfold stepNode at h
          split at h
          · cases h
          · split at h <;> cases h
          · split at h <;> cases h
          · split at h <;> cases h
          · cases h
          · cases h

theorem step_lower {lib : Lib} {l r : Ty} {v : Nat} {b : Ty} (h : step lib l r = .lower v b) : r = .var v ∧ b = l := by
  unfold step at h
  split at h
  · cases h
  · split at h
    · cases h
    · cases h
    · cases h; exact ⟨rfl, rfl⟩
    · cases h
    · cases h
    · unfold stepShort at h
      split at h
      · split at h
        · unfold stepDict at h; split at h <;> cases h
        · cases h
      · split at h
        · split at h
          · unfold stepDict at h; split at h <;> cases h
          · cases h
        · unfold stepNode at h
          split at h
          · cases h
          · split at h <;> cases h
          · split at h <;> cases h
          · split at h <;> cases h
          · cases h
          · cases h

end Tinymist.Constrain
