import Verif.Spec.WebTokens
import Verif.Props.Position
/-! # Lemmas about the semantic tokens of the compiler library -/
namespace Tinymist.WebTokens
open Position Spec

theorem isFunction_iff (n : Option (Kind × Option Kind)) : isFunction n = true ↔ Called n := by
  unfold isFunction Called
  cases n with
  | none => simp
  | some kp =>
    obtain ⟨k, p⟩ := kp
    simp only [Bool.or_eq_true, Bool.and_eq_true, decide_eq_true_eq, Option.some.injEq, Prod.mk.injEq]
    constructor
    · rintro (⟨rfl, rfl | rfl⟩ | ⟨rfl, rfl⟩) <;> simp
    · rintro (⟨rfl, rfl⟩ | ⟨rfl, rfl⟩ | ⟨rfl, rfl⟩) <;> simp

theorem in_table {k : Kind} {p : Option Kind} {n : Option (Kind × Option Kind)} {name : String}
    (h : table.any fun e => e.1 == name && e.2.contains k) : Named k p n name := by
  rw [List.any_eq_true] at h
  obtain ⟨⟨nm, ks⟩, he, hk⟩ := h
  simp only [Bool.and_eq_true, beq_iff_eq, List.contains_iff_mem] at hk
  obtain ⟨rfl, hk⟩ := hk
  exact .table he hk

theorem ownType_named {k : Kind} {p : Option Kind} {n : Option (Kind × Option Kind)} {t : Ty}
    (h : ownType k p n = some t) : Named k p n t.name := by
  unfold ownType at h
  split at h
  case h_1 =>
    split at h
    · rename_i hp; cases h; subst hp; exact .bold
    · split at h
      · rename_i hp; cases h; subst hp; exact .glob
      · cases h
  case h_2 =>
    split at h
    · rename_i hp; cases h; subst hp; exact .italic
    · split at h
      · rename_i hp; cases h; subst hp; exact .sub
      · cases h
  case h_3 =>
    cases h
    by_cases hf : isFunction n = true
    · rw [if_pos hf]; exact .call (.inr rfl) ((isFunction_iff n).mp hf)
    · rw [if_neg hf]; exact .var (.inr rfl) (fun hc => hf ((isFunction_iff n).mpr hc))
  case h_4 =>
    cases h
    by_cases hf : isFunction n = true
    · rw [if_pos hf]; exact .call (.inl rfl) ((isFunction_iff n).mp hf)
    · rw [if_neg hf]; exact .var (.inl rfl) (fun hc => hf ((isFunction_iff n).mpr hc))
  all_goals first | (cases h; done) | (cases h; exact in_table (by decide))

theorem ownType_table (k : Kind) (p : Option Kind) (n : Option (Kind × Option Kind)) (name : String)
    (h : ∃ ks, (name, ks) ∈ table ∧ k ∈ ks) : ∃ t, ownType k p n = some t ∧ t.name = name := by
  obtain ⟨ks, h, hk⟩ := h
  simp only [table, List.mem_cons, Prod.mk.injEq, List.not_mem_nil, or_false] at h
  rcases h with ⟨rfl, rfl⟩ | ⟨rfl, rfl⟩ | ⟨rfl, rfl⟩ | ⟨rfl, rfl⟩ | ⟨rfl, rfl⟩ | ⟨rfl, rfl⟩ | ⟨rfl, rfl⟩ |
    ⟨rfl, rfl⟩ | ⟨rfl, rfl⟩ | ⟨rfl, rfl⟩ | ⟨rfl, rfl⟩ | ⟨rfl, rfl⟩ | ⟨rfl, rfl⟩ | ⟨rfl, rfl⟩ | ⟨rfl, rfl⟩ | ⟨rfl, rfl⟩ <;>
  (cases k <;> first | (exact absurd hk (by decide)) | exact ⟨_, rfl, rfl⟩)

theorem named_ownType {k : Kind} {p : Option Kind} {n : Option (Kind × Option Kind)} {name : String}
    (h : Named k p n name) : ∃ t, ownType k p n = some t ∧ t.name = name := by
  cases h with
  | table h hk => exact ownType_table _ _ _ _ ⟨_, h, hk⟩
  | bold => exact ⟨_, rfl, rfl⟩
  | glob => exact ⟨_, rfl, rfl⟩
  | italic => exact ⟨_, rfl, rfl⟩
  | sub => exact ⟨_, rfl, rfl⟩
  | call hk h =>
    refine ⟨.function, ?_, rfl⟩
    rcases hk with rfl | rfl <;> simp only [ownType, (isFunction_iff n).mpr h, if_true]
  | var hk h =>
    refine ⟨.interpolated, ?_, rfl⟩
    have : ¬ isFunction n = true := fun hf => h ((isFunction_iff n).mp hf)
    rcases hk with rfl | rfl <;> simp only [ownType, if_neg this]

theorem typeOf_iff (i : Info) (p : Option Kind) (name : String) :
    HasName i p name ↔ ∃ t, typeOf i p = some t ∧ t.name = name := by
  unfold HasName typeOf
  by_cases h : i.kind = .hash
  · rw [if_pos h, if_pos h]
    constructor
    · rintro ⟨k, p, n, hf, hn⟩
      obtain ⟨t, ht, hn⟩ := named_ownType hn
      exact ⟨t, by rw [hf]; exact ht, hn⟩
    · rintro ⟨t, ht, rfl⟩
      obtain ⟨⟨k, p, n⟩, hf, ht⟩ := Option.bind_eq_some_iff.mp ht
      exact ⟨k, p, n, hf, ownType_named ht⟩
  · rw [if_neg h, if_neg h]
    constructor
    · exact named_ownType
    · rintro ⟨t, ht, rfl⟩
      exact ownType_named ht

/-- The bits of the kinds around a place. -/
def bitsOf : List Kind → Nat
  | [] => 0
  | k :: ks => bitsOf ks ||| modBits k

/-- Three bits. -/
def bits3 (a b c : Bool) : Nat := (if a then 1 else 0) + (if b then 2 else 0) + (if c then 4 else 0)

theorem modBits_bits3 (k : Kind) :
    modBits k = bits3 (decide (k = .strong)) (decide (k = .emph)) (decide (k = .math ∨ k = .equation)) := by
  cases k <;> decide

theorem bits3_or (a b c a' b' c' : Bool) : bits3 a b c ||| bits3 a' b' c' = bits3 (a || a') (b || b') (c || c') := by
  cases a <;> cases b <;> cases c <;> cases a' <;> cases b' <;> cases c' <;> decide

theorem bitsOf_bits3 (ks : List Kind) :
    bitsOf ks = bits3 (decide (Kind.strong ∈ ks)) (decide (Kind.emph ∈ ks)) (decide (Kind.math ∈ ks ∨ Kind.equation ∈ ks)) := by
  induction ks with
  | nil => rfl
  | cons k ks ih =>
    rw [bitsOf, ih, modBits_bits3, bits3_or]
    congr 1
    · rw [Bool.eq_iff_iff]; simp [or_comm, @eq_comm Kind k]
    · rw [Bool.eq_iff_iff]; simp [or_comm, @eq_comm Kind k]
    · rw [Bool.eq_iff_iff]
      simp only [Bool.or_eq_true, decide_eq_true_eq, List.mem_cons, @eq_comm Kind k]
      constructor
      · rintro ((h | h) | h | h) <;> simp [h]
      · rintro ((h | h) | h | h) <;> simp [h]

theorem names_styles (ks : List Kind) : namesOf (bitsOf ks) ["strong", "emph", "math"] = styles ks := by
  rw [bitsOf_bits3]
  unfold styles
  by_cases h1 : Kind.strong ∈ ks <;> by_cases h2 : Kind.emph ∈ ks <;> by_cases h3 : Kind.math ∈ ks ∨ Kind.equation ∈ ks <;>
    simp only [h1, h2, h3, decide_true, decide_false, if_true, if_false] <;> decide

theorem names_legend (ks : List Kind) : namesOf (bitsOf ks) legend.2 = styles ks := by
  have h : legend.2 = ["strong", "emph", "math"] := by decide
  rw [h, names_styles]

theorem halves (n : Nat) : n / 2 ^ 32 * 2 ^ 32 + n % 2 ^ 32 = n := by
  have := Nat.div_add_mod n (2 ^ 32)
  rw [Nat.mul_comm]
  exact this

theorem legend_name (t : Ty) : legend.1[t.code]? = some t.name := by cases t <;> decide

theorem position_at (enc : Encoding) (s pre post : Text) (h : s = pre ++ post) :
    position enc s (len8 pre) = toLsp enc s (len8 pre) := by
  obtain ⟨A, hd, t, B, hat, e, -⟩ := at_of s pre post h
  rw [e, len8_append, toLsp_at enc hat]
  unfold position
  simp only [byteToLine_at hat, byteToColumn, lineHead_at hat, Option.bind_eq_bind, Option.bind_some, Option.map_some]
  cases enc with
  | utf8 => rfl
  | utf16 =>
    simp only [byteToUtf16_at hat, lineToByte_at hat, byteToUtf16_start hat, Option.bind_some]
    simp only [col, Option.pure_def, Option.some.injEq, Prod.mk.injEq, true_and]
    omega

/-- Whether a node has no children. -/
def isLeafB : Node → Bool
  | .leaf _ _ => true
  | .inner _ cs => cs.isEmpty

theorem isLeafB_iff (n : Node) : isLeafB n = true ↔ IsLeaf n := by
  cases n <;> simp [isLeafB, IsLeaf]

/-- The raw token of a place. -/
def rawOf (p : Place) : List Sem :=
  single p.node.info p.around.head? (isLeafB p.node)
    (bitsOf (p.node.info.kind :: p.around)) (len8 p.before) p.node.text

mutual
theorem tree_raw : ∀ (n : Node) (before : Text) (around : List Kind),
    tree around.head? (bitsOf around) (len8 before) n = (places before around n).flatMap rawOf
  | .leaf i t, before, around => by simp [tree, places, rawOf, isLeafB, Node.info, Node.text, bitsOf]
  | .inner i cs, before, around => by
    rw [tree, places, List.flatMap_cons]
    have := forest_raw cs before (i.kind :: around)
    simp only [List.head?_cons, bitsOf] at this
    rw [this]
    simp [rawOf, isLeafB, Node.info, Node.text, bitsOf]
theorem forest_raw : ∀ (ns : List Node) (before : Text) (around : List Kind),
    forest around.head? (bitsOf around) (len8 before) ns = (placesIn before around ns).flatMap rawOf
  | [], _, _ => by simp [forest, placesIn]
  | n :: ns, before, around => by
    rw [forest, placesIn, List.flatMap_append, tree_raw n before around, ← len8_append, forest_raw ns]
end

mutual
theorem place_in : ∀ (n : Node) (before : Text) (around : List Kind), ∀ q ∈ places before around n,
    before <+: q.before ∧ q.before ++ q.node.text <+: before ++ n.text
  | .leaf i t, before, around, q, h => by
    simp only [places, List.mem_singleton] at h
    subst h
    exact ⟨List.prefix_refl _, List.prefix_refl _⟩
  | .inner i cs, before, around, q, h => by
    rw [places, List.mem_cons] at h
    rcases h with rfl | h
    · exact ⟨List.prefix_refl _, List.prefix_refl _⟩
    · exact placeIn_in cs before (i.kind :: around) q h
theorem placeIn_in : ∀ (ns : List Node) (before : Text) (around : List Kind), ∀ q ∈ placesIn before around ns,
    before <+: q.before ∧ q.before ++ q.node.text <+: before ++ forestText ns
  | [], _, _, q, h => by cases h
  | n :: ns, before, around, q, h => by
    rw [placesIn, List.mem_append] at h
    rcases h with h | h
    · obtain ⟨h1, h2⟩ := place_in n before around q h
      refine ⟨h1, h2.trans ?_⟩
      rw [forestText, ← List.append_assoc]
      exact List.prefix_append _ _
    · obtain ⟨h1, h2⟩ := placeIn_in ns (before ++ n.text) around q h
      refine ⟨(List.prefix_append _ _).trans h1, ?_⟩
      rw [forestText, ← List.append_assoc]
      exact h2
end

mutual
theorem places_sorted : ∀ (n : Node) (before : Text) (around : List Kind),
    (places before around n).Pairwise fun p q => p.before <+: q.before
  | .leaf i t, _, _ => by simp [places]
  | .inner i cs, before, around => by
    rw [places, List.pairwise_cons]
    exact ⟨fun q hq => (placeIn_in cs before _ q hq).1, placesIn_sorted cs before _⟩
theorem placesIn_sorted : ∀ (ns : List Node) (before : Text) (around : List Kind),
    (placesIn before around ns).Pairwise fun p q => p.before <+: q.before
  | [], _, _ => by simp [placesIn]
  | n :: ns, before, around => by
    rw [placesIn, List.pairwise_append]
    refine ⟨places_sorted n _ _, placesIn_sorted ns _ _, fun p hp q hq => ?_⟩
    exact ((List.prefix_append _ _).trans (place_in n before around p hp).2).trans (placeIn_in ns _ _ q hq).1
end

mutual
/-- Places within a place are places of the document. -/
theorem sub_places : ∀ (n : Node) (before : Text) (around : List Kind) (p : Place), p ∈ places before around n →
    ∀ q ∈ places p.before p.around p.node, q ∈ places before around n
  | .leaf i t, before, around, p, hp, q, hq => by
    simp only [places, List.mem_singleton] at hp
    subst hp
    exact hq
  | .inner i cs, before, around, p, hp, q, hq => by
    rw [places, List.mem_cons] at hp
    rcases hp with rfl | hp
    · exact hq
    · rw [places]
      exact List.mem_cons_of_mem _ (sub_placesIn cs before _ p hp q hq)
theorem sub_placesIn : ∀ (ns : List Node) (before : Text) (around : List Kind) (p : Place), p ∈ placesIn before around ns →
    ∀ q ∈ places p.before p.around p.node, q ∈ placesIn before around ns
  | [], _, _, p, hp, q, hq => by cases hp
  | n :: ns, before, around, p, hp, q, hq => by
    rw [placesIn, List.mem_append] at hp ⊢
    rcases hp with hp | hp
    · exact .inl (sub_places n _ _ p hp q hq)
    · exact .inr (sub_placesIn ns _ _ p hp q hq)
end

/-- The beginning of a document is its first position. -/
theorem toLsp_zero (enc : Encoding) (s : Text) : toLsp enc s 0 = some (0, 0) := by
  obtain ⟨A, hd, t, B, hat, e, -⟩ := at_of s [] s rfl
  have h2 : hd = [] := by
    have := congrArg List.length e
    rw [List.length_append, List.length_nil] at this
    exact List.eq_nil_of_length_eq_zero (by omega)
  subst h2
  have hA : A = [] := by
    cases A with
    | nil => rfl
    | cons a A =>
      exfalso
      have hf := full_lines s
      have ha : a = [] := by
        have := congrArg List.length e
        simp at this
        exact List.eq_nil_of_length_eq_zero (by omega)
      refine hf a ?_ ha
      rw [hat.eq, List.cons_append, List.dropLast_cons_of_ne_nil (by simp)]
      exact List.mem_cons_self ..
  subst hA
  have h := toLsp_at enc hat
  cases enc <;> exact h

end Tinymist.WebTokens
