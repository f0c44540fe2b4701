import Verif.Spec.Renaming
import Verif.Props.Paths

/-!
# Lemmas about renaming
-/

namespace Tinymist.Renaming

open Paths Pages

theorem renamableFn_iff (f : Fn) : renamableFn f = true ↔ Written f := by
  induction f with
  | withArgs f ih =>
    rw [renamableFn, ih]
    exact ⟨.withArgs, fun h => by cases h; assumption⟩
  | closure => exact ⟨fun _ => .closure, fun _ => rfl⟩
  | plugin => exact ⟨fun _ => .plugin, fun _ => rfl⟩
  | native => exact ⟨fun h => (nomatch h), fun h => (nomatch h)⟩
  | element => exact ⟨fun h => (nomatch h), fun h => (nomatch h)⟩

theorem validFn_iff (v : Option Val) : validFn v = true ↔ v = none ∨ ∃ f, v = some (.func f) ∧ Written f := by
  cases v with
  | none => simp [validFn]
  | some v =>
    cases v with
    | func f => rw [validFn, renamableFn_iff]; simp
    | other => simp [validFn]

theorem prepareRenaming_iff (n : Node) (d : Def) (t : Text) :
    prepareRenaming n d = some t ↔ (OwnName d ∧ t = d.name) ∨ OwnPath n d t := by
  rw [prepareRenaming]
  cases hf : d.file with
  | none => simp [OwnName, OwnPath, hf]
  | some p =>
    have hp : (∃ q, some p = some q ∧ q.package = false) ↔ p.package = false := by simp
    simp only [OwnName, OwnPath, hf, hp]
    cases hb : p.package with
    | true => simp
    | false =>
      have hv : validFn d.value = true ↔ _ := validFn_iff d.value
      simp only [renamedText, IsModule, Bool.false_eq_true, if_false, true_and]
      rw [← hv]
      cases d.kind <;> simp [@eq_comm Text t] <;> (cases n <;> simp [pathText])

theorem diffLoop_mem {c : Comp} : ∀ (A B acc r : List Comp), diffLoop acc A B = some r → c ∈ r →
    c ∈ acc ∨ c = .parent ∨ c ∈ A := by
  intro A B acc r
  induction acc, A, B using diffLoop.induct with
  | case1 acc => intro h hc; rw [diffLoop] at h; cases h; exact Or.inl hc
  | case2 acc a as =>
    intro h hc; rw [diffLoop] at h; cases h
    rcases List.mem_append.mp hc with h | h
    · exact Or.inl h
    · exact Or.inr (Or.inr h)
  | case3 acc b bs ih =>
    intro h hc; rw [diffLoop] at h
    rcases ih h hc with h | h | h
    · rcases List.mem_append.mp h with h | h
      · exact Or.inl h
      · exact Or.inr (Or.inl (List.mem_singleton.mp h))
    · exact Or.inr (Or.inl h)
    · cases h
  | case4 acc a as b bs hab ih =>
    intro h hc; rw [diffLoop, if_pos hab] at h
    rcases ih h hc with h | h | h
    · exact Or.inl h
    · exact Or.inr (Or.inl h)
    · exact Or.inr (Or.inr (List.mem_cons_of_mem _ h))
  | case5 acc a as bs hab ih =>
    intro h hc; rw [diffLoop, if_neg hab, if_pos rfl] at h
    rcases ih h hc with h | h | h
    · rcases List.mem_append.mp h with h | h
      · exact Or.inl h
      · exact Or.inr (Or.inr (List.mem_singleton.mp h ▸ List.mem_cons_self ..))
    · exact Or.inr (Or.inl h)
    · exact Or.inr (Or.inr (List.mem_cons_of_mem _ h))
  | case6 acc a as bs hab hb => intro h hc; rw [diffLoop, if_neg hab, if_neg hb, if_pos rfl] at h; cases h
  | case7 acc a as b bs hab hb hb' =>
    intro h hc; rw [diffLoop, if_neg hab, if_neg hb, if_neg hb'] at h; cases h
    rcases List.mem_append.mp hc with h | h
    · rcases List.mem_append.mp h with h | h
      · exact Or.inl h
      · rcases List.mem_cons.mp h with h | h
        · exact Or.inr (Or.inl h)
        · obtain ⟨_, _, h⟩ := List.mem_map.mp h
          exact Or.inr (Or.inl h.symm)
    · exact Or.inr (Or.inr h)

theorem join_relative {a b : Text} (ha : isAbsolute a = false) (hb : isAbsolute b = false) :
    isAbsolute (join a b) = false := by
  rw [join, hb]
  cases a with
  | nil => simpa using hb
  | cons c cs =>
    simp only [Bool.false_eq_true, if_false]
    split
    · rw [isAbsolute_append (by simp), ha]
    · rw [isAbsolute_append (by simp), ha]

theorem collect_relative_from (cs : List Comp) (h : ∀ c ∈ cs, GoodComp c ∧ c ≠ .root) (p : Text) (hp : isAbsolute p = false) :
    isAbsolute (cs.foldl (fun p c => join p (compText c)) p) = false := by
  induction cs generalizing p with
  | nil => exact hp
  | cons c cs ih =>
    have hc := h c (List.mem_cons_self ..)
    exact ih (fun x hx => h x (List.mem_cons_of_mem _ hx)) _ (join_relative hp (compText_not_absolute hc.1 hc.2))

theorem relative_no_root {s : Text} (h : isAbsolute s = false) : Comp.root ∉ components s := by
  intro hm
  rcases components_cases s with ⟨h', _⟩ | ⟨_, e⟩ | ⟨_, e⟩
  · rw [h] at h'; cases h'
  · rw [e] at hm
    rcases List.mem_cons.mp hm with hm | hm
    · cases hm
    · exact (body_inner hm).1 rfl
  · rw [e] at hm; exact (body_inner hm).1 rfl

/-- Between two relative paths the way is relative. -/
theorem diff_relative {a b d : Text} (ha : isAbsolute a = false) (hb : isAbsolute b = false) (h : diff a b = some d) :
    isAbsolute d = false := by
  rw [diff, diffPaths, isAbsolute_cleanForDiff, isAbsolute_cleanForDiff, ha, hb, if_neg (by simp)] at h
  obtain ⟨r, h1, rfl⟩ := Option.map_eq_some_iff.mp h
  refine collect_relative_from r ?_ [] rfl
  intro c hc
  have hr : Comp.root ∉ components (cleanForDiff a) := relative_no_root (by rw [isAbsolute_cleanForDiff]; exact ha)
  rcases diffLoop_mem _ _ _ _ h1 hc with h | h | h
  · cases h
  · subst h; exact ⟨fun n hn => (by cases hn), (by simp)⟩
  · exact ⟨components_good h, fun e => hr (e ▸ h)⟩

theorem editsIn_nil (f : Nat) : editsIn f [] = [] := rfl

theorem editsIn_cons (f g : Nat) (es : List TextEdit) (rest : List (Nat × List TextEdit)) :
    editsIn f ((g, es) :: rest) = if g = f then es ++ editsIn f rest else editsIn f rest := by
  simp only [editsIn, List.filter_cons]
  by_cases h : g = f <;> simp [h]

/-- The files are distinct. -/
def Distinct (es : List (Nat × List TextEdit)) : Prop := (es.map (·.1)).Nodup

theorem addEdit_files (new : Text) (acc : List (Nat × List TextEdit)) (x : Nat × Range) (g : Nat) :
    g ∈ (addEdit new acc x).map (·.1) ↔ g ∈ acc.map (·.1) ∨ g = x.1 := by
  induction acc with
  | nil => simp [addEdit]
  | cons y ys ih =>
    obtain ⟨f, r⟩ := x
    obtain ⟨h, es⟩ := y
    rw [addEdit]
    by_cases e : h = f
    · rw [if_pos e]; simp only [List.map_cons, List.mem_cons, e]
      grind
    · rw [if_neg e]
      simp only [List.map_cons, List.mem_cons] at ih ⊢
      rw [ih]
      grind

theorem addEdit_distinct (new : Text) (acc : List (Nat × List TextEdit)) (x : Nat × Range) (h : Distinct acc) :
    Distinct (addEdit new acc x) := by
  induction acc with
  | nil => simp [addEdit, Distinct]
  | cons y ys ih =>
    obtain ⟨f, r⟩ := x
    obtain ⟨g, es⟩ := y
    rw [addEdit]
    by_cases e : g = f
    · rw [if_pos e]; exact h
    · rw [if_neg e]
      have h' := List.nodup_cons.mp h
      refine List.nodup_cons.mpr ⟨?_, ih h'.2⟩
      intro hm
      rcases (addEdit_files new ys (f, r) g).mp hm with hm | hm
      · exact h'.1 hm
      · exact e hm

theorem not_file {g : Nat} {acc : List (Nat × List TextEdit)} (h : g ∉ acc.map (·.1)) : editsIn g acc = [] := by
  induction acc with
  | nil => rfl
  | cons y ys ih =>
    obtain ⟨f, es⟩ := y
    simp only [List.map_cons, List.mem_cons, not_or] at h
    rw [editsIn_cons, if_neg (Ne.symm h.1), ih h.2]

theorem editsIn_addEdit (new : Text) (acc : List (Nat × List TextEdit)) (f g : Nat) (r : Range) (h : Distinct acc) :
    editsIn g (addEdit new acc (f, r)) = editsIn g acc ++ (if f = g then [⟨r, new⟩] else []) := by
  induction acc with
  | nil => rw [addEdit, editsIn_cons]; rfl
  | cons y ys ih =>
    obtain ⟨k, es⟩ := y
    have h' := List.nodup_cons.mp h
    rw [addEdit]
    by_cases e : k = f
    · subst e
      rw [if_pos rfl, editsIn_cons, editsIn_cons]
      by_cases e' : k = g
      · subst e'
        rw [if_pos rfl, if_pos rfl, if_pos rfl, not_file h'.1]; simp
      · rw [if_neg e', if_neg e', if_neg e']; simp
    · rw [if_neg e, editsIn_cons, editsIn_cons, ih h'.2]
      by_cases e' : k = g
      · rw [if_pos e', if_pos e', List.append_assoc]
      · rw [if_neg e', if_neg e']

theorem editsOf_from (new : Text) (refs : List (Nat × Range)) (acc : List (Nat × List TextEdit)) (h : Distinct acc) (g : Nat) :
    Distinct (refs.foldl (addEdit new) acc) ∧ editsIn g (refs.foldl (addEdit new) acc) =
      editsIn g acc ++ ((refs.filter (·.1 = g)).map fun x => ⟨x.2, new⟩) := by
  induction refs generalizing acc with
  | nil => exact ⟨h, by simp⟩
  | cons x xs ih =>
    obtain ⟨f, r⟩ := x
    have := ih (addEdit new acc (f, r)) (addEdit_distinct new acc (f, r) h)
    refine ⟨this.1, ?_⟩
    rw [List.foldl_cons, this.2, editsIn_addEdit new acc f g r h, List.filter_cons]
    by_cases e : f = g <;> simp [e]

end Tinymist.Renaming

namespace Tinymist.Renaming

open Paths Pages

theorem split_ending {t : Text} (ht : '/' ∉ t) (a : Text) : ∃ pre l, split '/' (a ++ t) = pre ++ [l ++ t] := by
  induction a with
  | nil =>
    refine ⟨[], [], ?_⟩
    induction t with
    | nil => rfl
    | cons c cs ih =>
      rw [List.mem_cons, not_or] at ht
      have := ih ht.2
      simp only [List.nil_append] at this ⊢
      rw [split, if_neg (Ne.symm ht.1), this]
  | cons c cs ih =>
    obtain ⟨pre, l, e⟩ := ih
    rw [List.cons_append, split, e]
    by_cases h : c = '/'
    · rw [if_pos h]; exact ⟨[] :: pre, l, rfl⟩
    · rw [if_neg h]
      cases pre with
      | nil => exact ⟨[], c :: l, rfl⟩
      | cons p ps => exact ⟨(c :: p) :: ps, l, rfl⟩

/-- A path ending in `.typ` ends in a name. -/
theorem ends_in_name (a : Text) :
    ∃ pre n, components (a ++ ['.', 't', 'y', 'p']) = pre ++ [.normal n] := by
  obtain ⟨pre, l, e⟩ := split_ending (t := ['.', 't', 'y', 'p']) (by decide) a
  have hlen : 4 ≤ (l ++ ['.', 't', 'y', 'p']).length := by simp
  have hb : body (split '/' (a ++ ['.', 't', 'y', 'p'])) = body pre ++ [.normal (l ++ ['.', 't', 'y', 'p'])] := by
    rw [e, body, body, List.filter_append, List.map_append]
    congr 1
    have h1 : l ++ ['.', 't', 'y', 'p'] ≠ ['.'] := fun h => by rw [h] at hlen; simp at hlen
    have h2 : l ++ ['.', 't', 'y', 'p'] ≠ ['.', '.'] := fun h => by rw [h] at hlen; simp at hlen
    rw [List.filter_cons, if_pos (by simp [h1])]
    simp only [List.filter_nil, List.map_cons, List.map_nil, toComp, if_neg h2]
  rcases components_cases (a ++ ['.', 't', 'y', 'p']) with ⟨_, h⟩ | ⟨_, h⟩ | ⟨_, h⟩
  · exact ⟨.root :: body pre, _, by rw [h, hb]; rfl⟩
  · exact ⟨.cur :: body pre, _, by rw [h, hb]; rfl⟩
  · exact ⟨body pre, _, by rw [h, hb]⟩

theorem clean_ends (X : List Comp) (n : Text) : cleanComps (X ++ [.normal n]) = cleanComps X ++ [.normal n] := by
  rw [cleanComps, List.foldl_append, List.foldl_cons, List.foldl_nil, cleanStep, List.reverse_cons]; rfl

/-- There is no way from a path that leads further up. -/
theorem diff_none (a base : Text) (ha : isAbsolute (a ++ ['.', 't', 'y', 'p']) = false) (hb : isAbsolute base = false)
    (h : climbs (a ++ ['.', 't', 'y', 'p']) < climbs base) : diff (a ++ ['.', 't', 'y', 'p']) base = none := by
  obtain ⟨pre, n, e⟩ := ends_in_name a
  generalize a ++ ['.', 't', 'y', 'p'] = path at *
  rw [climbs_eq, climbs_eq] at h
  have hA : cleanComps (components path) = cleanComps pre ++ [.normal n] := by rw [e, clean_ends]
  have hroot : ∀ s, isAbsolute s = false → (cleanComps (components s)).head? ≠ some .root := by
    intro s hs hh; rw [cleanComps_root.mp hh] at hs; cases hs
  rw [diff, diffPaths, isAbsolute_cleanForDiff, isAbsolute_cleanForDiff, ha, hb, if_neg (by simp)]
  have eA : components (cleanForDiff path) = cleanComps (components path) := by
    rcases cleanForDiff_comps path with ⟨_, h0⟩ | ⟨h0, _⟩
    · rw [hA] at h0; simp at h0
    · exact h0
  have eB : components (cleanForDiff base) = cleanComps (components base) := by
    rcases cleanForDiff_comps base with ⟨_, h0⟩ | ⟨h0, _⟩
    · rw [h0] at h; simp at h
    · exact h0
  rw [eA, eB]
  rcases cleanComps_canon path with ⟨ns, c⟩ | ⟨k, ns, c⟩
  · exact absurd (by rw [c]; rfl) (hroot path ha)
  rcases cleanComps_canon base with ⟨ms, c'⟩ | ⟨j, ms, c'⟩
  · exact absurd (by rw [c']; rfl) (hroot base hb)
  rw [c, c', count_canon, count_canon] at h
  have hns : ns ≠ [] := by
    rintro rfl
    rw [c] at hA
    have : Comp.normal n ∈ List.replicate k Comp.parent ++ [].map Comp.normal := by rw [hA]; simp
    simp at this
  obtain ⟨x, xs, rfl⟩ := List.exists_cons_of_ne_nil hns
  obtain ⟨m, rfl⟩ : ∃ m, j = k + (m + 1) := ⟨j - k - 1, by omega⟩
  have hs : List.replicate (k + (m + 1)) Comp.parent = List.replicate k .parent ++ List.replicate (m + 1) .parent :=
    (List.replicate_append_replicate ..).symm
  rw [c, c', hs, List.append_assoc, diffLoop_parents, List.replicate_succ, List.map_cons, List.cons_append, diffLoop,
    if_neg (by simp), if_neg (by simp), if_pos rfl]
  rfl

/-- Between two absolute paths the way is relative. -/
theorem diff_absolute_relative {a b d : Text} (ha : isAbsolute a = true) (hb : isAbsolute b = true) (h : diff a b = some d) :
    isAbsolute d = false := by
  rw [diff, diffPaths, isAbsolute_cleanForDiff, isAbsolute_cleanForDiff, ha, hb, if_neg (by simp)] at h
  obtain ⟨r, h1, rfl⟩ := Option.map_eq_some_iff.mp h
  have abs : ∀ s, isAbsolute s = true → components (cleanForDiff s) = .root :: body (split '/' (cleanForDiff s)) := by
    intro s hs
    rw [components, isAbsolute_cleanForDiff, hs]; rfl
  rw [abs a ha, abs b hb, diffLoop_root] at h1
  refine collect_relative_from r ?_ [] rfl
  intro c hc
  rcases diffLoop_mem _ _ _ _ h1 hc with h | h | h
  · cases h
  · subst h; exact ⟨fun n hn => (by cases hn), (by simp)⟩
  · exact ⟨body_split_good h, (body_inner h).1⟩

end Tinymist.Renaming
