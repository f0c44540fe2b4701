import Verif.Spec.Workspace
import Verif.Lemmas.Paths
import Verif.Props.Paths
import Verif.Lemmas.RustNum
namespace Tinymist.Workspace
open Paths RustNum

abbrev names (ns : List Text) : List Comp := ns.map .normal

/-! ## Virtual paths -/

theorem vpathFold_within (cs : List Comp) (hr : .root ∉ cs) (d ns : Dir) (h : within d cs = some ns) :
    cs.foldl vpathStep (names d).reverse = (names ns).reverse := by
  induction cs generalizing d with
  | nil => injection h with h; rw [h]; rfl
  | cons c cs ih =>
    have hr' : Comp.root ∉ cs := fun hm => hr (List.mem_cons_of_mem _ hm)
    rw [List.foldl_cons]
    cases c with
    | root => exact (hr (List.mem_cons_self ..)).elim
    | cur => exact ih hr' d h
    | normal n =>
      rw [within] at h
      have := ih hr' (d ++ [n]) h
      rw [← this]; simp [vpathStep, names]
    | parent =>
      rw [within] at h
      split at h
      · cases h
      · rename_i hd
        rcases List.eq_nil_or_concat d with rfl | ⟨d', n, rfl⟩
        · exact (hd rfl).elim
        · have := ih hr' _ h
          rw [← this]; simp [vpathStep, vpathPop, names]

/-- Once a path has led above the root, its virtual path keeps a leading `..`. -/
theorem vpathFold_above (cs : List Comp) (hr : .root ∉ cs) (k : Nat) (ms : List Text) :
    ∃ k' ms', k ≤ k' ∧ (cs.foldl vpathStep (List.replicate k Comp.parent ++ names ms).reverse).reverse
      = List.replicate k' Comp.parent ++ names ms' := by
  induction cs generalizing k ms with
  | nil => exact ⟨k, ms, Nat.le_refl _, by simp⟩
  | cons c cs ih =>
    have hr' : Comp.root ∉ cs := fun hm => hr (List.mem_cons_of_mem _ hm)
    rw [List.foldl_cons]
    cases c with
    | root => exact (hr (List.mem_cons_self ..)).elim
    | cur => exact ih hr' k ms
    | normal n =>
      have := ih hr' k (ms ++ [n])
      simpa [vpathStep, names] using this
    | parent =>
      rcases List.eq_nil_or_concat ms with rfl | ⟨ms', n, rfl⟩
      · obtain ⟨k', ms', h1, h2⟩ := ih hr' (k + 1) []
        refine ⟨k', ms', by omega, ?_⟩
        rw [← h2]
        congr 2
        cases k with
        | zero => rfl
        | succ k =>
          have : ∀ j, (List.replicate j Comp.parent ++ names []).reverse = List.replicate j Comp.parent := by
            intro j; simp [names]
          rw [this, this]; rfl
      · obtain ⟨k', ms'', h1, h2⟩ := ih hr' k ms'
        refine ⟨k', ms'', h1, ?_⟩
        rw [← h2]
        simp [vpathStep, vpathPop, names]

theorem vpathFold_escapes (cs : List Comp) (hr : .root ∉ cs) (d : Dir) (h : within d cs = none) :
    ∃ k ms, 0 < k ∧ (cs.foldl vpathStep (names d).reverse).reverse = List.replicate k Comp.parent ++ names ms := by
  induction cs generalizing d with
  | nil => cases h
  | cons c cs ih =>
    have hr' : Comp.root ∉ cs := fun hm => hr (List.mem_cons_of_mem _ hm)
    rw [List.foldl_cons]
    cases c with
    | root => exact (hr (List.mem_cons_self ..)).elim
    | cur => exact ih hr' d h
    | normal n =>
      rw [within] at h
      have := ih hr' (d ++ [n]) h
      simpa [vpathStep, names] using this
    | parent =>
      rw [within] at h
      split at h
      · rename_i hd
        subst hd
        obtain ⟨k, ms, h1, h2⟩ := vpathFold_above cs hr' 1 []
        exact ⟨k, ms, by omega, h2⟩
      · rename_i hd
        rcases List.eq_nil_or_concat d with rfl | ⟨d', n, rfl⟩
        · exact (hd rfl).elim
        · have := ih hr' _ h
          simpa [vpathStep, vpathPop, names] using this

theorem components_tail (s : Text) :
    ∃ cs, Comp.root ∉ cs ∧ (components s = .root :: cs ∨ components s = cs) := by
  rcases components_cases s with ⟨_, e⟩ | ⟨_, e⟩ | ⟨_, e⟩
  · exact ⟨_, fun h => (body_inner h).1 rfl, Or.inl e⟩
  · refine ⟨_, ?_, Or.inr e⟩
    intro h
    rcases List.mem_cons.mp h with h | h
    · cases h
    · exact (body_inner h).1 rfl
  · exact ⟨_, fun h => (body_inner h).1 rfl, Or.inr e⟩

/-- The virtual path of a path that stays inside the root. -/
theorem vpathNew_within (s : Text) (ns : Dir) (h : within [] (components s) = some ns) : vpathNew s = names ns := by
  obtain ⟨cs, hr, e | e⟩ := components_tail s
  · rw [e, within] at h
    rw [vpathNew, e, List.foldl_cons]
    have := vpathFold_within cs hr [] ns h
    rw [show vpathStep [] Comp.root = (names []).reverse from rfl, this, List.reverse_reverse]
  · rw [e] at h
    have := vpathFold_within cs hr [] ns h
    rw [vpathNew, e, show ([] : List Comp) = (names []).reverse from rfl, this, List.reverse_reverse]

/-- The virtual path of a path that leads above the root. -/
theorem vpathNew_escapes (s : Text) (h : within [] (components s) = none) :
    ∃ k ms, 0 < k ∧ vpathNew s = List.replicate k Comp.parent ++ names ms := by
  obtain ⟨cs, hr, e | e⟩ := components_tail s
  · rw [e, within] at h
    rw [vpathNew, e, List.foldl_cons]
    exact vpathFold_escapes cs hr [] h
  · rw [e] at h
    rw [vpathNew, e]
    exact vpathFold_escapes cs hr [] h

theorem resolveLoop_names (L : Nat) (out : List Comp) (ns : List Text) :
    resolveLoop L out (names ns) = some (out ++ names ns) := by
  induction ns generalizing out with
  | nil => simp [names, resolveLoop]
  | cons n ns ih =>
    rw [names, List.map_cons, resolveLoop, ih]
    simp

theorem collect_concat (cs : List Comp) (c : Comp) : collect (cs ++ [c]) = join (collect cs) (compText c) := by
  rw [collect_append]; rfl

theorem length_join {a b : Text} (hb : isAbsolute b = false) (hne : b ≠ []) : a.length < (join a b).length := by
  have := List.length_pos_iff.mpr hne
  rw [join, hb, if_neg (by simp)]
  split <;> simp <;> omega

/-- Above a root other than `/` there is no access. -/
theorem resolveLoop_parent (out : List Comp) (hg : ∀ c ∈ out, GoodComp c) (hne : out ≠ [])
    (hr : out.getLast? ≠ some .root) (cs : List Comp) :
    resolveLoop (collect out).length out (.parent :: cs) = none := by
  rcases List.eq_nil_or_concat out with rfl | ⟨cs', c, rfl⟩
  · exact (hne rfl).elim
  · rw [List.concat_eq_append] at *
    have hc : c ≠ .root := by
      rintro rfl
      exact hr (by simp)
    rw [resolveLoop, pop, if_neg hr, List.dropLast_concat, collect_concat, if_pos]
    have := hg c (by simp)
    exact length_join (compText_not_absolute this hc) (compText_ne_nil this)

theorem resolveLoop_root (k : Nat) (cs : List Comp) :
    resolveLoop 1 [.root] (List.replicate k Comp.parent ++ cs) = resolveLoop 1 [.root] cs := by
  induction k with
  | zero => rfl
  | succ k ih =>
    rw [List.replicate_succ, List.cons_append, resolveLoop, if_neg (by decide)]
    exact ih

/-! ## Clean texts -/

/-- A text that cleaning produces. -/
def IsClean (t : Text) : Prop := ∃ s, t = clean s

theorem clean_of_clean {t : Text} (h : IsClean t) : clean t = t := by
  obtain ⟨s, rfl⟩ := h
  exact (clean_eq_iff _ _).mpr (clean_same s)

theorem collect_components {t : Text} (h : IsClean t) : collect (components t) = t := by
  obtain ⟨s, rfl⟩ := h
  rw [components_clean, clean]
  cases cleanComps (components s) with
  | nil => decide
  | cons c cs => rw [if_neg (by simp)]

theorem clean_congr {s t : Text} (h : components s = components t) : clean s = clean t := by
  rw [clean, clean, h]

theorem components_clean_ne_nil {t : Text} (h : IsClean t) : components t ≠ [] := by
  obtain ⟨s, rfl⟩ := h
  rw [components_clean]
  split
  · simp
  · assumption

/-! ## The id table -/

/-- What holds of every id table. -/
structure Inv (i : Interner) : Prop where
  fromId : ∀ e ∈ i.toId, i.fromId[e.2]? = some e.1
  toClean : ∀ t ∈ i.fromId, IsClean t
  size : i.fromId.length ≤ u16Max + 1

theorem inv_init : Inv .init := ⟨(by intro e h; cases h), (by intro t h; cases h), (by simp [Interner.init])⟩

theorem workspaceId_spec {i i' : Interner} {root : Text} {id : Nat} (hi : Inv i)
    (h : workspaceId i root = some (i', id)) :
    Inv i' ∧ i'.fromId[id]? = some (clean root) ∧ id ≤ u16Max ∧ ∃ l, i'.fromId = i.fromId ++ l := by
  rw [workspaceId] at h
  cases hl : i.lookup root with
  | some id' =>
    rw [hl] at h
    injection h with h
    injection h with h1 h2
    subst h1; subst h2
    obtain ⟨e, he, rfl⟩ := Option.map_eq_some_iff.mp hl
    have hm := List.mem_of_find?_eq_some he
    have hc : components e.1 = components root := by simpa using List.find?_some he
    have hf := hi.fromId e hm
    have hlt : e.2 < i.fromId.length := by
      rcases Nat.lt_or_ge e.2 i.fromId.length with h | h
      · exact h
      · rw [List.getElem?_eq_none h] at hf; cases hf
    refine ⟨hi, ?_, ?_, [], by simp⟩
    · rw [hf, ← clean_congr hc, clean_of_clean (hi.toClean _ (List.mem_of_getElem? hf))]
    · have := hi.size; omega
  | none =>
    rw [hl] at h
    simp only at h
    split at h
    · rename_i hs
      injection h with h
      injection h with h1 h2
      subst h1; subst h2
      refine ⟨⟨?_, ?_, ?_⟩, ?_, hs, _, rfl⟩
      · intro e he
        rcases List.mem_cons.mp he with rfl | he
        · simp
        · have := hi.fromId e he
          have hlt : e.2 < i.fromId.length := by
            rcases Nat.lt_or_ge e.2 i.fromId.length with h | h
            · exact h
            · rw [List.getElem?_eq_none h] at this; cases this
          rw [List.getElem?_append_left hlt]
          exact this
      · intro t ht
        rcases List.mem_append.mp ht with ht | ht
        · exact hi.toClean t ht
        · rw [List.mem_singleton] at ht; exact ⟨root, ht⟩
      · simp; omega
      · simp
    · cases h

theorem reachable_inv {i : Interner} (h : Reachable i) : Inv i := by
  induction h with
  | init => exact inv_init
  | step _ hw ih => exact (workspaceId_spec ih hw).1

theorem later_inv {i j : Interner} (hi : Inv i) (h : Later i j) : Inv j ∧ ∃ l, j.fromId = i.fromId ++ l := by
  induction h with
  | refl => exact ⟨hi, [], by simp⟩
  | step _ hw ih =>
    obtain ⟨h1, l, e⟩ := ih
    obtain ⟨h2, _, _, l', e'⟩ := workspaceId_spec h1 hw
    exact ⟨h2, l ++ l', by rw [e', e, List.append_assoc]⟩

theorem later_path {i j : Interner} (hi : Inv i) (h : Later i j) {id : Nat} {t : Text}
    (ht : i.fromId[id]? = some t) : j.fromId[id]? = some t := by
  obtain ⟨_, l, e⟩ := later_inv hi h
  have hlt : id < i.fromId.length := by
    rcases Nat.lt_or_ge id i.fromId.length with h | h
    · exact h
    · rw [List.getElem?_eq_none h] at ht; cases ht
  rw [e, List.getElem?_append_left hlt]
  exact ht

theorem resolve_wsPackage {id : Nat} (h : id ≤ u16Max) (v : List Comp) :
    resolve ⟨some (wsPackage id), v⟩ = .workspace id := by
  have hp : fromPackageName (wsPackage id).name = some id :=
    parse_print (b := 10) (by omega) (by omega) u16Max id h
  have hn : (wsPackage id).ns = wsNs := rfl
  have hv : ¬ (wsPackage id).version = (0, 0, 1) := by show ¬ (0, 0, 0) = (0, 0, 1); decide
  rw [resolve]
  simp only [hp, hn, if_true, if_neg hv]

theorem denotes_absolute (d : Dir) (ns : List Text) {t : Text} (h : components t = .root :: names ns) :
    denotes d t = ns := by
  rw [denotes, h, walk_cons, walk_names]; rfl

end Tinymist.Workspace
