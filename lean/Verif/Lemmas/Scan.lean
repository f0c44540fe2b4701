import Verif.Spec.Scan
import Verif.Props.Pages

/-! # Lemmas about kinds of files and the walk of a folder -/

namespace Tinymist.Scan

/-! ## Kinds of files -/

theorem foldEq_iff {p : Char} (h1 : p.toLower ≠ Char.ofNat 0x17F) (h2 : p.toLower ≠ Char.ofNat 0x212A) (c : Char) :
    foldEq p c = true ↔ p.toLower = small c := by
  unfold foldEq small
  have e1 : (Char.ofNat 0x17F).toLower = Char.ofNat 0x17F := by decide
  have e2 : (Char.ofNat 0x212A).toLower = Char.ofNat 0x212A := by decide
  have e3 : Char.ofNat 0x212A ≠ Char.ofNat 0x17F := by decide
  simp only [Bool.or_eq_true, beq_iff_eq, Bool.and_eq_true]
  by_cases hc : c = Char.ofNat 0x17F
  · subst hc
    rw [if_pos rfl, e1]
    constructor
    · rintro ((h | h) | h)
      · exact absurd h h1
      · exact h.1
      · exact absurd h.2.symm e3
    · exact fun h => .inl (.inr ⟨h, rfl⟩)
  · by_cases hk : c = Char.ofNat 0x212A
    · subst hk
      rw [if_neg hc, if_pos rfl, e2]
      constructor
      · rintro ((h | h) | h)
        · exact absurd h h2
        · exact absurd h.2 e3
        · exact h.1
      · exact fun h => .inr ⟨h, rfl⟩
    · rw [if_neg hc, if_neg hk]
      constructor
      · rintro ((h | h) | h)
        · exact h
        · exact absurd h.2 hc
        · exact absurd h.2 hk
      · exact fun h => .inl (.inl h)

/-- A pattern in which no letter is one of the other forms. -/
def PlainPattern (p : Text) : Prop := ∀ c ∈ p, c.toLower ≠ Char.ofNat 0x17F ∧ c.toLower ≠ Char.ofNat 0x212A

theorem patternMatch_iff : ∀ {p : Text}, PlainPattern p → ∀ e, patternMatch p e = true ↔ p.map Char.toLower = e.map small
  | [], _, [] => by simp [patternMatch]
  | [], _, c :: e => by simp [patternMatch]
  | a :: p, _, [] => by simp [patternMatch]
  | a :: p, h, c :: e => by
    have ha := h a (by simp)
    have ih := patternMatch_iff (p := p) (fun x hx => h x (by simp [hx])) e
    rw [patternMatch, Bool.and_eq_true, foldEq_iff ha.1 ha.2, ih]
    simp

/-- All the patterns there are. -/
def allPatterns : List String :=
  ["typ", "typc", "wasm", "ico", "bmp", "png", "webp", "jpg", "jpeg", "jfif", "tiff", "gif", "svg", "svgz", "json", "jsonc", "json5",
    "yaml", "yml", "xml", "toml", "csv", "bib", "csl", "tmTheme", "tmLanguage", "sublime-syntax"]

theorem plain_patterns : ∀ s ∈ allPatterns, PlainPattern s.toList := by
  unfold PlainPattern
  decide +kernel

theorem patterns_sub (k : Kind) : ∀ s ∈ patterns k, s ∈ allPatterns := by
  cases k <;> decide +kernel

theorem specials_sub : ∀ s ∈ specialKinds.flatMap patterns, s ∈ allPatterns := by decide +kernel

theorem any_iff {l : List String} (h : ∀ s ∈ l, s ∈ allPatterns) (e : Text) :
    (l.any fun p => patternMatch p.toList e) = true ↔ ∃ s ∈ l, e.map small = s.toList.map Char.toLower := by
  rw [List.any_eq_true]
  constructor
  · rintro ⟨s, hs, hm⟩
    exact ⟨s, hs, ((patternMatch_iff (plain_patterns s (h s hs)) e).mp hm).symm⟩
  · rintro ⟨s, hs, hm⟩
    exact ⟨s, hs, (patternMatch_iff (plain_patterns s (h s hs)) e).mpr hm.symm⟩

theorem patterns_ext (k : Kind) :
    (∀ s ∈ patterns k, ∃ t ∈ extensionsOf k, s.toList.map Char.toLower = t.toList) ∧
    (∀ t ∈ extensionsOf k, ∃ s ∈ patterns k, s.toList.map Char.toLower = t.toList) := by
  cases k <;> decide +kernel

theorem named_patterns (k : Kind) (e : Text) : (∃ s ∈ patterns k, e.map small = s.toList.map Char.toLower) ↔ Named k e := by
  constructor
  · rintro ⟨s, hs, h⟩
    obtain ⟨t, ht, e'⟩ := (patterns_ext k).1 s hs
    exact ⟨t, ht, h.trans e'⟩
  · rintro ⟨t, ht, h⟩
    obtain ⟨s, hs, e'⟩ := (patterns_ext k).2 t ht
    exact ⟨s, hs, h.trans e'.symm⟩

theorem extMatch_named {k : Kind} (hk : k.Concrete) (e : Text) : extMatch k e = true ↔ Named k e := by
  rw [← named_patterns, ← any_iff (patterns_sub k)]
  cases k <;> first | rfl | exact absurd rfl hk.1 | exact absurd rfl hk.2

theorem special_named (e : Text) : extMatch .special e = true ↔ ∃ k : Kind, k.Concrete ∧ Named k e := by
  have : extMatch .special e = (specialKinds.flatMap patterns).any fun p => patternMatch p.toList e := rfl
  rw [this, any_iff specials_sub]
  constructor
  · rintro ⟨s, hs, h⟩
    obtain ⟨k, hk, hs⟩ := List.mem_flatMap.mp hs
    refine ⟨k, ?_, (named_patterns k e).mp ⟨s, hs, h⟩⟩
    constructor <;> (rintro rfl; revert hk; decide)
  · rintro ⟨k, hk, h⟩
    obtain ⟨s, hs, h⟩ := (named_patterns k e).mpr h
    refine ⟨s, List.mem_flatMap.mpr ⟨k, ?_, hs⟩, h⟩
    cases k <;> first | decide | exact absurd rfl hk.1 | exact absurd rfl hk.2

theorem small_ascii {e : Text} (h : Ascii e) : e.map small = e.map Char.toLower := by
  apply List.map_congr_left
  intro c hc
  have h' := h c hc
  unfold small
  rw [if_neg, if_neg]
  · rintro rfl; revert h'; decide
  · rintro rfl; revert h'; decide

theorem isMatch_iff (k : Kind) (name : Text) : isMatch k name = true ↔ ∃ e, HasExt name e ∧ extMatch k e = true := by
  unfold isMatch
  cases h : Pages.extension name with
  | none =>
    simp only [Bool.false_eq_true, false_iff]
    rintro ⟨e, he, -⟩
    rw [(Pages.extension_iff name e).mpr he] at h; cases h
  | some e =>
    constructor
    · exact fun hm => ⟨e, (Pages.extension_iff name e).mp h, hm⟩
    · rintro ⟨e', he, hm⟩
      rw [(Pages.extension_iff name e').mpr he] at h; cases h; exact hm

theorem ext_unique {name e e' : Text} (h : HasExt name e) (h' : HasExt name e') : e = e' := by
  have a := (Pages.extension_iff name e).mpr h
  have b := (Pages.extension_iff name e').mpr h'
  rw [a] at b; exact Option.some.inj b

/-! ## The walk -/

mutual
/-- The files of a thing in the folder `p` in order. -/
def walkNode (want : Text → Bool) (p : List Text) : Node → List (List Text)
  | .file name => if isHidden name || isIgnored name then [] else if want name then [p ++ [name]] else []
  | .other _ => []
  | .broken => []
  | .dir name cs => if isHidden name || isIgnored name then [] else walks want (p ++ [name]) cs
/-- The files of things in the folder `p` in order. -/
def walks (want : Text → Bool) (p : List Text) : List Node → List (List Text)
  | [] => []
  | n :: ns => walkNode want p n ++ walks want p ns
end

/-- The name has an extension that is wanted. -/
def wantExt (ext : Text → Bool) (name : Text) : Bool :=
  match Pages.extension name with
  | some e => ext e
  | none => false

/-- The files of the open folders. -/
def stackWalk (want : Text → Bool) : List (List Text × List Node) → List (List Text)
  | [] => []
  | (p, ns) :: rest => walks want p ns ++ stackWalk want rest

theorem scanLoop_eq (ext : Text → Bool) (limit : Nat) (found : List (List Text)) (stack : List (List Text × List Node))
    (h : found.length < limit) :
    scanLoop ext limit found stack = found ++ (stackWalk (wantExt ext) stack).take (limit - found.length) := by
  induction found, stack using scanLoop.induct (ext := ext) (limit := limit) with
  | case1 found => simp [scanLoop, stackWalk]
  | case2 found p rest ih => rw [scanLoop, ih h]; simp [stackWalk, walks]
  | case3 found p ns rest ih => rw [scanLoop, ih h]; simp [stackWalk, walks, walkNode]
  | case4 found p n ns rest ih => rw [scanLoop, ih h]; simp [stackWalk, walks, walkNode]
  | case5 found p n cs ns rest hh ih => rw [scanLoop, if_pos hh, ih h]; simp [stackWalk, walks, walkNode, hh]
  | case6 found p n cs ns rest hh hi ih => rw [scanLoop, if_neg hh, if_pos hi, ih h]; simp [stackWalk, walks, walkNode, hi]
  | case7 found p n cs ns rest hh hi ih => rw [scanLoop, if_neg hh, if_neg hi, ih h]; simp [stackWalk, walks, walkNode, hi, hh]
  | case8 found p n ns rest hh ih => rw [scanLoop, if_pos hh, ih h]; simp [stackWalk, walks, walkNode, hh]
  | case9 found p n ns rest hh hi ih => rw [scanLoop, if_neg hh, if_pos hi, ih h]; simp [stackWalk, walks, walkNode, hi]
  | case10 found p n ns rest hh hi hm hl =>
    have hw : wantExt ext n = true := hm
    rw [scanLoop, if_neg hh, if_neg hi, if_pos hm, if_pos hl]
    have hl' : limit - found.length = 1 := by simp at hl; omega
    rw [hl']
    simp [stackWalk, walks, walkNode, hi, hh, hw]
  | case11 found p n ns rest hh hi hm hl ih =>
    have hw : wantExt ext n = true := hm
    rw [scanLoop, if_neg hh, if_neg hi, if_pos hm, if_neg hl, ih (by omega)]
    have e : limit - found.length = (limit - (found ++ [p ++ [n]]).length) + 1 := by simp at hl ⊢; omega
    rw [e]
    simp [stackWalk, walks, walkNode, hi, hh, hw]
  | case12 found p n ns rest hh hi hm ih =>
    have hw : ¬ wantExt ext n = true := hm
    rw [scanLoop, if_neg hh, if_neg hi, if_neg hm, ih h]
    simp [stackWalk, walks, walkNode, hi, hh, hw]

theorem kept_iff (name : Text) : (isHidden name || isIgnored name) = false ↔ Kept name := by
  have h1 : isHidden name = false ↔ name.head? ≠ some '.' := by
    cases name with
    | nil => simp [isHidden]
    | cons c r =>
      unfold isHidden
      split <;> simp_all
  have h2 : isIgnored name = false ↔ name ∉ ["build", "target", "node_modules", "out", "dist"].map String.toList := by
    unfold isIgnored
    rw [Bool.eq_false_iff, ne_eq, List.any_eq_true]
    simp only [beq_iff_eq, List.mem_map]
  rw [Bool.or_eq_false_iff, h1, h2]; rfl

theorem Listed.cons {want : Text → Prop} {n : Node} {ns : List Node} {t : List Text} :
    Listed want (n :: ns) t ↔ Listed want [n] t ∨ Listed want ns t := by
  constructor
  · intro h
    cases h with
    | file hm hk hw =>
      rcases List.mem_cons.mp hm with rfl | hm
      · exact .inl (.file (by simp) hk hw)
      · exact .inr (.file hm hk hw)
    | dir hm hk hl =>
      rcases List.mem_cons.mp hm with rfl | hm
      · exact .inl (.dir (by simp) hk hl)
      · exact .inr (.dir hm hk hl)
  · rintro (h | h)
    · cases h with
      | file hm hk hw => exact .file (by simp at hm; simp [hm]) hk hw
      | dir hm hk hl => exact .dir (by simp at hm; simp [hm]) hk hl
    · cases h with
      | file hm hk hw => exact .file (by simp [hm]) hk hw
      | dir hm hk hl => exact .dir (by simp [hm]) hk hl

theorem Listed.not_nil {want : Text → Prop} {t : List Text} : ¬ Listed want [] t := by
  intro h
  cases h with
  | file hm => cases hm
  | dir hm => cases hm

mutual
theorem mem_walkNode (want : Text → Bool) : ∀ (n : Node) (p q : List Text),
    q ∈ walkNode want p n ↔ ∃ t, q = p ++ t ∧ Listed (fun x => want x = true) [n] t
  | .file name, p, q => by
    rw [walkNode]
    constructor
    · intro h
      split at h
      · cases h
      · split at h
        · rename_i hk hw
          exact ⟨[name], by simpa using h, .file (by simp) ((kept_iff name).mp (by simpa using hk)) hw⟩
        · cases h
    · rintro ⟨t, rfl, hl⟩
      cases hl with
      | file hm hk hw =>
        simp at hm; subst hm
        rw [(kept_iff _).mpr hk]; simp [hw]
      | dir hm => simp at hm
  | .other name, p, q => by
    rw [walkNode]
    simp only [List.not_mem_nil, false_iff]
    rintro ⟨t, -, hl⟩
    cases hl with
    | file hm => simp at hm
    | dir hm => simp at hm
  | .broken, p, q => by
    rw [walkNode]
    simp only [List.not_mem_nil, false_iff]
    rintro ⟨t, -, hl⟩
    cases hl with
    | file hm => simp at hm
    | dir hm => simp at hm
  | .dir name cs, p, q => by
    rw [walkNode]
    constructor
    · intro h
      split at h
      · cases h
      · rename_i hk
        obtain ⟨t, rfl, hl⟩ := (mem_walks want cs _ _).mp h
        exact ⟨name :: t, by simp, .dir (by simp) ((kept_iff name).mp (by simpa using hk)) hl⟩
    · rintro ⟨t, rfl, hl⟩
      cases hl with
      | file hm => simp at hm
      | dir hm hk hl =>
        simp at hm; obtain ⟨rfl, rfl⟩ := hm
        rw [(kept_iff _).mpr hk]
        exact (mem_walks want _ _ _).mpr ⟨_, by simp, hl⟩
theorem mem_walks (want : Text → Bool) : ∀ (ns : List Node) (p q : List Text),
    q ∈ walks want p ns ↔ ∃ t, q = p ++ t ∧ Listed (fun x => want x = true) ns t
  | [], p, q => by
    rw [walks]
    simp only [List.not_mem_nil, false_iff]
    rintro ⟨t, -, hl⟩
    exact hl.not_nil
  | n :: ns, p, q => by
    rw [walks, List.mem_append, mem_walkNode want n, mem_walks want ns]
    simp only [Listed.cons (n := n) (ns := ns)]
    constructor
    · rintro (⟨t, e, h⟩ | ⟨t, e, h⟩)
      · exact ⟨t, e, .inl h⟩
      · exact ⟨t, e, .inr h⟩
    · rintro ⟨t, e, h | h⟩
      · exact .inl ⟨t, e, h⟩
      · exact .inr ⟨t, e, h⟩
end

theorem Listed.head {want : Text → Prop} {n : Node} {t : List Text} (h : Listed want [n] t) :
    ∃ x r, n.name? = some x ∧ t = x :: r := by
  cases h with
  | file hm => simp at hm; subst hm; exact ⟨_, _, rfl, rfl⟩
  | dir hm => simp at hm; subst hm; exact ⟨_, _, rfl, rfl⟩

theorem Listed.mem {want : Text → Prop} {ns : List Node} {t : List Text} (h : Listed want ns t) :
    ∃ m ∈ ns, ∃ x r, m.name? = some x ∧ t = x :: r := by
  cases h with
  | file hm => exact ⟨_, hm, _, _, rfl, rfl⟩
  | dir hm => exact ⟨_, hm, _, _, rfl, rfl⟩

mutual
theorem nodup_walkNode (want : Text → Bool) : ∀ (n : Node) (p : List Text), (∀ x cs, n = .dir x cs → Proper cs) →
    (walkNode want p n).Nodup
  | .file name, p, _ => by
    rw [walkNode]
    split
    · simp
    · split <;> simp
  | .other name, p, _ => by simp [walkNode]
  | .broken, p, _ => by simp [walkNode]
  | .dir name cs, p, h => by
    rw [walkNode]
    split
    · simp
    · exact nodup_walks want cs _ (h name cs rfl)
theorem nodup_walks (want : Text → Bool) : ∀ (ns : List Node) (p : List Text), Proper ns → (walks want p ns).Nodup
  | [], p, _ => by simp [walks]
  | n :: ns, p, h => by
    rw [walks]
    have h1 : ∀ x, n.name? = some x → ∀ m ∈ ns, m.name? ≠ some x := by cases h; assumption
    have h2 : ∀ x cs, n = .dir x cs → Proper cs := by cases h; assumption
    have h3 : Proper ns := by cases h; assumption
    refine List.nodup_append.mpr ⟨nodup_walkNode want n p h2, nodup_walks want ns p h3, ?_⟩
    rintro a ha b hb rfl
    obtain ⟨t, rfl, hl⟩ := (mem_walkNode want n p a).mp ha
    obtain ⟨t', e, hl'⟩ := (mem_walks want ns p _).mp hb
    have := List.append_cancel_left e
    subst this
    obtain ⟨x, r, hx, rfl⟩ := hl.head
    obtain ⟨m, hm, y, r', hy, e⟩ := hl'.mem
    simp at e
    exact h1 x hx m hm (by rw [hy, e.1])
end

/-! ## Casts -/

theorem unionIter_eq (stack : List (List Cast)) : unionIter stack = stack.flatMap leavesOf := by
  induction stack using unionIter.induct with
  | case1 => simp [unionIter]
  | case2 rest ih => rw [unionIter, ih]; simp [leavesOf]
  | case3 ts cs rest ih => rw [unionIter, ih]; simp [leavesOf, leaves]
  | case4 cs rest ih => rw [unionIter, ih]; simp [leavesOf, leaves]
  | case5 v cs rest ih => rw [unionIter, ih]; simp [leavesOf, leaves]
  | case6 t cs rest ih => rw [unionIter, ih]; simp [leavesOf, leaves]

mutual
theorem mem_leaves : ∀ (c l : Cast), l ∈ leaves c ↔ Alternative l c
  | .any, l => by
    rw [leaves, List.mem_singleton]
    exact ⟨fun h => h ▸ .any, fun h => by cases h; rfl⟩
  | .value v, l => by
    rw [leaves, List.mem_singleton]
    exact ⟨fun h => h ▸ .value v, fun h => by cases h; rfl⟩
  | .type t, l => by
    rw [leaves, List.mem_singleton]
    exact ⟨fun h => h ▸ .type t, fun h => by cases h; rfl⟩
  | .union cs, l => by
    rw [leaves, mem_leavesOf cs l]
    constructor
    · rintro ⟨c, hc, h⟩; exact .union hc h
    · intro h
      cases h with
      | union hc h => exact ⟨_, hc, h⟩
theorem mem_leavesOf : ∀ (cs : List Cast) (l : Cast), l ∈ leavesOf cs ↔ ∃ c ∈ cs, Alternative l c
  | [], l => by simp [leavesOf]
  | c :: cs, l => by
    rw [leavesOf, List.mem_append, mem_leaves c l, mem_leavesOf cs l]
    simp
end

theorem Alternative.leaf {l c : Cast} (h : Alternative l c) : Stands l (leafTy l) := by
  induction h with
  | any => rfl
  | value => rfl
  | type => rfl
  | union _ _ ih => exact ih

end Tinymist.Scan
