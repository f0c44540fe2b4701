import Verif.Spec.References

/-! # What names mean after a rename -/
namespace Tinymist.Scoping

/-- The environments before and after. -/
structure Renamed (d : Decl) (new : Name) (env env' : Env) : Prop where
  same : ∀ n, n ≠ new → env n ≠ some (.decl d) → env' n = env n
  moved : ∀ n, env n = some (.decl d) → env' new = some (.decl (d.withName new))
  fresh : env new = none
  only : env' new = none ∨ env' new = some (.decl (d.withName new))

/-- The edits are exactly where the definition is meant. -/
def Hits (hit : Span → Bool) (d : Decl) (l : List (Span × Option Meaning)) : Prop :=
  ∀ x ∈ l, (hit x.1 = true ↔ x.2 = some (.decl d))

/-- The places with the meanings after the rename. -/
def moved (d : Decl) (new : Name) (l : List (Span × Option Meaning)) :
    List (Span × Option Meaning) :=
  l.map (fun x => (x.1, x.2.map (Meaning.renamed d new)))

theorem moved_append (d : Decl) (new : Name) (a b : List (Span × Option Meaning)) :
    moved d new (a ++ b) = moved d new a ++ moved d new b := List.map_append

theorem moved_cons (d : Decl) (new : Name) (x : Span × Option Meaning)
    (b : List (Span × Option Meaning)) :
    moved d new (x :: b) = (x.1, x.2.map (Meaning.renamed d new)) :: moved d new b := rfl

theorem Hits.left {hit : Span → Bool} {d : Decl} {a b : List (Span × Option Meaning)}
    (h : Hits hit d (a ++ b)) : Hits hit d a :=
  fun x hx => h x (List.mem_append_left _ hx)

theorem Hits.right {hit : Span → Bool} {d : Decl} {a b : List (Span × Option Meaning)}
    (h : Hits hit d (a ++ b)) : Hits hit d b :=
  fun x hx => h x (List.mem_append_right _ hx)

theorem renamed_self (d : Decl) (new : Name) :
    Meaning.renamed d new (.decl d) = .decl (d.withName new) := by
  rw [Meaning.renamed, if_pos rfl]

theorem renamed_other (d : Decl) (new : Name) (m : Meaning) (h : m ≠ .decl d) :
    Meaning.renamed d new m = m := by
  rw [Meaning.renamed, if_neg h]

/-- Binding a name to something else. -/
theorem Renamed.bind_other {d : Decl} {new : Name} {env env' : Env} (h : Renamed d new env env')
    (n : Name) (m : Meaning) (hn : n ≠ new) (hm : m ≠ .decl d) :
    Renamed d new (env.bind n m) (env'.bind n m) := by
  constructor
  · intro k hk he
    unfold Env.bind at he ⊢
    by_cases hkn : k = n
    · rw [if_pos hkn, if_pos hkn]
    · rw [if_neg hkn] at he ⊢
      rw [if_neg hkn]
      exact h.same k hk he
  · intro k he
    unfold Env.bind at he ⊢
    rw [if_neg (Ne.symm hn)]
    by_cases hkn : k = n
    · rw [if_pos hkn] at he
      exact absurd (Option.some.inj he) hm
    · rw [if_neg hkn] at he
      exact h.moved k he
  · unfold Env.bind
    rw [if_neg (Ne.symm hn)]
    exact h.fresh
  · unfold Env.bind
    rw [if_neg (Ne.symm hn)]
    exact h.only

/-- Binding a name to the definition. -/
theorem Renamed.bind_self {d : Decl} {new : Name} {env env' : Env} (h : Renamed d new env env')
    (n : Name) (hn : n ≠ new) :
    Renamed d new (env.bind n (.decl d)) (env'.bind new (.decl (d.withName new))) := by
  constructor
  · intro k hk he
    unfold Env.bind at he ⊢
    rw [if_neg hk]
    by_cases hkn : k = n
    · rw [if_pos hkn] at he
      exact absurd rfl he
    · rw [if_neg hkn] at he ⊢
      exact h.same k hk he
  · intro k _
    unfold Env.bind
    rw [if_pos rfl]
  · unfold Env.bind
    rw [if_neg (Ne.symm hn)]
    exact h.fresh
  · unfold Env.bind
    rw [if_pos rfl]
    exact .inr rfl

/-- Binding a name at a place with a meaning. -/
theorem Renamed.bind_at {d : Decl} {new : Name} {env env' : Env} (h : Renamed d new env env')
    (hit : Span → Bool) (s : Span) (n : Name) (m : Meaning) (hn : n ≠ new)
    (hh : hit s = true ↔ m = .decl d) :
    Renamed d new (env.bind n m) (env'.bind (renameAt hit new s n) (Meaning.renamed d new m)) := by
  by_cases hs : hit s = true
  · rw [renameAt, if_pos hs, hh.mp hs, renamed_self]
    exact h.bind_self n hn
  · have hm : m ≠ .decl d := fun e => hs (hh.mpr e)
    rw [renameAt, if_neg hs, renamed_other d new m hm]
    exact h.bind_other n m hn hm

/-- A new variable at a place. -/
theorem renamed_var (hit : Span → Bool) (d : Decl) (new : Name) (s : Span) (n : Name)
    (hh : hit s = true ↔ Meaning.decl (.var s n) = .decl d) :
    Meaning.renamed d new (.decl (.var s n)) = .decl (.var s (renameAt hit new s n)) := by
  by_cases hs : hit s = true
  · have := hh.mp hs
    rw [renameAt, if_pos hs, Meaning.renamed, if_pos this]
    cases this
    rfl
  · rw [renameAt, if_neg hs, renamed_other]
    exact fun e => hs (hh.mpr e)

theorem Renamed.var_at {d : Decl} {new : Name} {env env' : Env} (h : Renamed d new env env')
    (hit : Span → Bool) (s : Span) (n : Name) (hn : n ≠ new)
    (hh : hit s = true ↔ some (Meaning.decl (.var s n)) = some (.decl d)) :
    Renamed d new (env.bind n (.decl (.var s n)))
      (env'.bind (renameAt hit new s n) (.decl (.var s (renameAt hit new s n)))) := by
  have hh' : hit s = true ↔ Meaning.decl (.var s n) = .decl d :=
    hh.trans ⟨Option.some.inj, fun e => e ▸ rfl⟩
  have := h.bind_at hit s n _ hn hh'
  rwa [renamed_var hit d new s n hh'] at this

/-- The places of a pattern. -/
def patPlaces (p : Pat) : List (Span × Option Meaning) :=
  p.map (fun x => (x.1, some (.decl (.var x.1 x.2))))

theorem pat_moved (hit : Span → Bool) (d : Decl) (new : Name) (p : Pat)
    (hh : Hits hit d (patPlaces p)) :
    patPlaces (renamePat hit new p) = moved d new (patPlaces p) := by
  induction p with
  | nil => rfl
  | cons x p ih =>
    obtain ⟨s, n⟩ := x
    have h1 := hh (s, some (.decl (.var s n))) (by simp [patPlaces])
    have h2 := ih (fun y hy => hh y (by
      rw [patPlaces, List.map_cons]; exact List.mem_cons_of_mem _ hy))
    rw [patPlaces, renamePat, List.map_cons, List.map_cons]
    rw [patPlaces, renamePat] at h2
    rw [h2, show patPlaces ((s, n) :: p) =
      (s, some (.decl (.var s n))) :: patPlaces p from rfl, moved_cons]
    simp only [Option.map_some]
    rw [renamed_var hit d new s n (by rw [h1]; simp)]

theorem Renamed.pat {d : Decl} {new : Name} (hit : Span → Bool) (p : Pat) {env env' : Env}
    (h : Renamed d new env env') (hh : Hits hit d (patPlaces p))
    (hn : ∀ n ∈ p.map (·.2), n ≠ new) :
    Renamed d new (env.bindPat p) (env'.bindPat (renamePat hit new p)) := by
  induction p generalizing env env' with
  | nil => exact h
  | cons x p ih =>
    obtain ⟨s, n⟩ := x
    rw [renamePat, List.map_cons, Env.bindPat, Env.bindPat]
    refine ih ?_ (fun y hy => hh y (by
      rw [patPlaces, List.map_cons]; exact List.mem_cons_of_mem _ hy))
      (fun m hm => hn m (by rw [List.map_cons]; exact List.mem_cons_of_mem _ hm))
    exact h.var_at hit s n (hn n (by simp)) (hh (s, some (.decl (.var s n))) (by simp [patPlaces]))

/-- What a name means at its place. -/
theorem Renamed.look {d : Decl} {new : Name} {env env' : Env} (h : Renamed d new env env')
    (W : World) (hl : ∀ m, W.lib m new = none) (hit : Span → Bool) (s : Span) (n : Name)
    (math : Bool) (hn : n ≠ new)
    (hh : hit s = true ↔ env.look W n math = some (.decl d)) :
    env'.look W (renameAt hit new s n) math =
      (env.look W n math).map (Meaning.renamed d new) := by
  have hiff : env.look W n math = some (.decl d) ↔ env n = some (.decl d) := by
    rw [Env.look]
    cases env n with
    | some m => exact Iff.rfl
    | none =>
      simp only
      cases W.lib math n <;> simp
  rw [hiff] at hh
  by_cases hs : hit s = true
  · have he := hh.mp hs
    rw [renameAt, if_pos hs, Env.look, h.moved n he, Env.look, he]
    simp only [Option.map_some]
    rw [renamed_self]
  · have he : env n ≠ some (.decl d) := fun e => hs (hh.mpr e)
    rw [renameAt, if_neg hs, Env.look, h.same n hn he, Env.look]
    cases hen : env n with
    | some m =>
      simp only [Option.map_some]
      rw [renamed_other]
      intro e
      rw [hen, e] at he
      exact he rfl
    | none =>
      simp only
      cases W.lib math n with
      | none => rfl
      | some v =>
        simp only [Option.map_some]
        rw [renamed_other]
        exact fun e => by cases e

/-- A function. -/
theorem renamed_fun (hit : Span → Bool) (d : Decl) (new : Name) (s : Span) (name : Option Name)
    (hd : d.Named)
    (hh : hit s = true ↔ some (Meaning.decl (functionDef s name)) = some (.decl d)) :
    Meaning.renamed d new (.decl (functionDef s name)) =
      .decl (functionDef s (name.map (renameAt hit new s))) := by
  cases name with
  | none =>
    rw [renamed_other]
    · rfl
    · obtain ⟨s', n', rfl | rfl⟩ := hd <;> exact fun e => by cases e
  | some n =>
    rw [Option.map_some, renameAt]
    by_cases hs : hit s = true
    · rw [if_pos hs]
      have := Option.some.inj (hh.mp hs)
      rw [Meaning.renamed, if_pos this]
      cases this
      rfl
    · rw [if_neg hs, renamed_other]
      exact fun e => hs (hh.mpr (congrArg some e))

theorem Renamed.fun_at {d : Decl} {new : Name} {env env' : Env} (h : Renamed d new env env')
    (hit : Span → Bool) (s : Span) (name : Option Name) (hd : d.Named)
    (hn : ∀ n ∈ name.toList, n ≠ new)
    (hh : hit s = true ↔ some (Meaning.decl (functionDef s name)) = some (.decl d)) :
    Renamed d new (bindName env (.decl (functionDef s name)) name)
      (bindName env' (.decl (functionDef s (name.map (renameAt hit new s))))
        (name.map (renameAt hit new s))) := by
  have he := renamed_fun hit d new s name hd hh
  cases name with
  | none => exact h
  | some n =>
    rw [← he]
    simp only [Option.map_some, bindName]
    exact h.bind_at hit s n _ (hn n (by simp)) (hh.trans ⟨Option.some.inj, fun e => e ▸ rfl⟩)

/-- Import items. -/
theorem items_moved (W : World) (ex ex' : File → Env) (hit : Span → Bool) (d : Decl) (new : Name)
    (scope scope' : Env) (hsc : Renamed d new scope scope') (l : List Item) (env env' : Env)
    (h : Renamed d new env env')
    (hp : ∀ it ∈ l, ∃ x, it.path = [x])
    (hn : ∀ n ∈ l.flatMap (fun it => it.path.map (·.2) ++ it.rename.toList.map (·.2)), n ≠ new)
    (hh : Hits hit d (usesItems W ex scope l env).1) :
    (usesItems W ex' scope' (l.map (renameItem hit new)) env').1 =
        moved d new (usesItems W ex scope l env).1 ∧
      Renamed d new (usesItems W ex scope l env).2
        (usesItems W ex' scope' (l.map (renameItem hit new)) env').2 := by
  induction l generalizing env env' with
  | nil => exact ⟨rfl, h⟩
  | cons it l ih =>
    obtain ⟨⟨s, n⟩, hx⟩ := hp it (by simp)
    obtain ⟨path, rename⟩ := it
    simp only at hx
    subst hx
    have hnn : n ≠ new := hn n (by simp)
    have hm0 : itemMeaning W ex scope ⟨[(s, n)], rename⟩ = (scope n).getD .unknown := rfl
    have hm1 : itemMeaning W ex' scope' (renameItem hit new ⟨[(s, n)], rename⟩) =
        (scope' (renameAt hit new s n)).getD .unknown := rfl
    simp only [usesItems] at hh
    rw [List.map_cons]
    simp only [usesItems]
    rw [hm0] at hh ⊢
    rw [hm1]
    have hs := hh.left.left (s, some ((scope n).getD .unknown)) (by simp [Item.last])
    simp only at hs
    have hmm : (scope' (renameAt hit new s n)).getD .unknown =
        Meaning.renamed d new ((scope n).getD .unknown) := by
      have hiff : some ((scope n).getD .unknown) = some (Meaning.decl d) ↔
          scope n = some (.decl d) := by
        cases scope n <;> simp
      rw [hiff] at hs
      by_cases hb : hit s = true
      · rw [renameAt, if_pos hb, hsc.moved n (hs.mp hb), hs.mp hb]
        simp only [Option.getD_some]
        rw [renamed_self]
      · have he : scope n ≠ some (.decl d) := fun e => hb (hs.mpr e)
        rw [renameAt, if_neg hb, hsc.same n hnn he, renamed_other]
        intro e
        cases hsn : scope n with
        | none => rw [hsn] at e; cases e
        | some m => rw [hsn] at e; simp only [Option.getD_some] at e; rw [hsn, e] at he; exact he rfl
    rw [hmm]
    have hb : Renamed d new (bindItem env ⟨[(s, n)], rename⟩ ((scope n).getD .unknown))
        (bindItem env' (renameItem hit new ⟨[(s, n)], rename⟩)
          (Meaning.renamed d new ((scope n).getD .unknown))) := by
      cases rename with
      | none =>
        exact h.bind_at hit s n _ hnn (hs.trans ⟨Option.some.inj, fun e => congrArg some e⟩)
      | some a =>
        obtain ⟨t, k⟩ := a
        have ht := hh.left.right (t, some ((scope n).getD .unknown)) (by simp)
        exact h.bind_at hit t k _ (hn k (by simp))
          (ht.trans ⟨Option.some.inj, fun e => congrArg some e⟩)
    obtain ⟨i1, i2⟩ := ih _ _ hb (fun it hit => hp it (by simp [hit]))
      (fun k hk => hn k (by rw [List.flatMap_cons]; exact List.mem_append_right _ hk)) hh.right
    refine ⟨?_, i2⟩
    rw [i1, moved_append, moved_append]
    congr 1
    cases rename <;> rfl

theorem import_moved (W : World) (ex ex' : File → Env) (hit : Span → Bool) (d : Decl) (new : Name)
    (hd : d.Named) (hex : ∀ f, Renamed d new (ex f) (ex' f)) (hst : ∀ f, W.stem f ≠ new)
    (i : Import) (env env' : Env) (h : Renamed d new env env')
    (hp : Plain (.imp i)) (hn : ∀ n ∈ identifiers (.imp i), n ≠ new)
    (hh : Hits hit d (usesImport W ex i env).1) :
    (usesImport W ex' (renameImport hit new i) env').1 =
        moved d new (usesImport W ex i env).1 ∧
      Renamed d new (usesImport W ex i env).2
        (usesImport W ex' (renameImport hit new i) env').2 := by
  obtain ⟨stmt, src, alias, what⟩ := i
  obtain ⟨⟨s, f, hsrc⟩, hal, hit'⟩ := hp
  simp only at hsrc hal hit'
  subst hsrc
  have hmod : Meaning.decl (.module f) ≠ .decl d := by
    obtain ⟨s', n', rfl | rfl⟩ := hd <;> exact fun e => by cases e
  have hren : Meaning.renamed d new (.decl (.module f)) = .decl (.module f) :=
    renamed_other d new _ hmod
  -- the alias is not edited
  have halias : alias.map (fun x => (x.1, renameAt hit new x.1 x.2)) = alias := by
    cases alias with
    | none => rfl
    | some a =>
      obtain ⟨t, k⟩ := a
      have : ¬ hit t = true := by
        intro ht
        have h1 : (t, some (Meaning.decl (.module f))) ∈
            (usesImport W ex ⟨stmt, .path s f, some (t, k), what⟩ env).1 := by
          cases what <;> simp [usesImport, srcMeaning, modName]
        have := (hh _ h1).mp ht
        exact hmod (Option.some.inj this)
      rw [Option.map_some, renameAt, if_neg this]
  have hname : ∀ n, (modName W ⟨stmt, .path s f, alias, what⟩
      (some (.decl (.module f)))).map (·.2) = some n → n ≠ new := by
    intro n hmn
    cases alias with
    | some a =>
      obtain ⟨t, k⟩ := a
      simp only [modName, Option.map_some, Option.some.injEq] at hmn
      subst hmn
      exact hn k (by simp [identifiers])
    | none =>
      cases what with
      | bare =>
        simp only [modName, Option.map_some, Option.some.injEq] at hmn
        subst hmn
        exact hst f
      | star => simp [modName] at hmn
      | items l => simp [modName] at hmn
  have henv1 : Renamed d new
      (bindName env (.decl (.module f)) ((modName W ⟨stmt, .path s f, alias, what⟩
        (some (.decl (.module f)))).map (·.2)))
      (bindName env' (.decl (.module f)) ((modName W ⟨stmt, .path s f, alias, what⟩
        (some (.decl (.module f)))).map (·.2))) := by
    cases hq : (modName W ⟨stmt, .path s f, alias, what⟩
        (some (.decl (.module f)))).map (·.2) with
    | none => exact h
    | some n => exact h.bind_other n _ (hname n hq) hmod
  have hmodn : ∀ w', (∀ l, what = .items l → ∃ l', w' = .items l') →
      (what = .bare → w' = .bare) → (what = .star → w' = .star) →
      modName W ⟨stmt, .path s f, alias, w'⟩ (some (.decl (.module f))) =
        modName W ⟨stmt, .path s f, alias, what⟩ (some (.decl (.module f))) := by
    intro w' h1 h2 h3
    cases what with
    | bare => rw [h2 rfl]
    | star => rw [h3 rfl]
    | items l => obtain ⟨l', rfl⟩ := h1 l rfl; cases alias <;> rfl
  cases what with
  | bare =>
    simp only [renameImport, usesImport, srcMeaning, halias, Option.getD_some]
    exact ⟨by simp [moved, hren], henv1⟩
  | star =>
    simp only [renameImport, usesImport, srcMeaning, halias, Option.getD_some, members]
    refine ⟨by simp [moved, hren], ?_⟩
    constructor
    · intro n hnn he
      cases hx : ex f n with
      | some m =>
        rw [hx] at he
        simp only at he
        rw [(hex f).same n hnn (by rw [hx]; exact he), hx]
      | none =>
        rw [hx] at he
        simp only at he
        rw [(hex f).same n hnn (by rw [hx]; exact fun e => by cases e), hx]
        exact henv1.same n hnn he
    · intro n he
      rcases (hex f).only with ho | ho
      · rw [ho]
        simp only
        cases hx : ex f n with
        | some m =>
          rw [hx] at he
          simp only at he
          have := (hex f).moved n (by rw [hx]; exact he)
          rw [ho] at this
          cases this
        | none =>
          rw [hx] at he
          exact henv1.moved n he
      · rw [ho]
    · rw [(hex f).fresh]
      exact henv1.fresh
    · rcases (hex f).only with ho | ho
      · rw [ho]; exact henv1.only
      · rw [ho]; exact .inr rfl
  | items l =>
    have hh2 : Hits hit d (usesItems W ex (ex f) l
        (bindName env (.decl (.module f)) ((modName W ⟨stmt, .path s f, alias, .items l⟩
        (some (.decl (.module f)))).map (·.2)))).1 := by
      simp only [usesImport, srcMeaning, Option.getD_some, members] at hh
      exact hh.right
    obtain ⟨i1, i2⟩ := items_moved W ex ex' hit d new (ex f) (ex' f) (hex f) l _ _ henv1
      (fun it hi => (hit' l rfl it hi).1.imp (fun x hx => hx.1))
      (fun n hnn => hn n (by
        simp only [identifiers]
        exact List.mem_append_right _ (List.mem_append_right _ hnn))) hh2
    have hq := hmodn (.items (l.map (renameItem hit new))) (fun _ _ => ⟨_, rfl⟩)
      (fun e => by cases e) (fun e => by cases e)
    simp only [renameImport, usesImport, srcMeaning, halias, Option.getD_some, members]
    rw [hq]
    refine ⟨?_, i2⟩
    rw [i1, moved_append]
    congr 1
    simp [moved, hren, Src.span]

mutual
theorem uses_moved (W : World) (ex ex' : File → Env) (hit : Span → Bool) (d : Decl) (new : Name)
    (hd : d.Named) (hex : ∀ f, Renamed d new (ex f) (ex' f)) (hl : ∀ m, W.lib m new = none)
    (hst : ∀ f, W.stem f ≠ new) : ∀ (e : E) (env env' : Env), Renamed d new env env' →
      Plain e → (∀ n ∈ identifiers e, n ≠ new) → Hits hit d (uses W ex e env).1 →
      (uses W ex' (renameE hit new e) env').1 = moved d new (uses W ex e env).1 ∧
        Renamed d new (uses W ex e env).2 (uses W ex' (renameE hit new e) env').2
  | .skip, env, env', h, _, _, _ => by
    simp only [renameE, uses]
    exact ⟨rfl, h⟩
  | .ident s n m, env, env', h, _, hn, hh => by
    simp only [renameE, uses] at hh ⊢
    refine ⟨?_, h⟩
    have h1 := hh (s, env.look W n m) (by simp)
    rw [h.look W hl hit s n m (hn n (by simp [identifiers])) h1]
    rfl
  | .seq a b, env, env', h, hp, hn, hh => by
    simp only [renameE, uses] at hh ⊢
    simp only [identifiers, List.mem_append] at hn
    obtain ⟨a1, a2⟩ := uses_moved W ex ex' hit d new hd hex hl hst a env env' h hp.1
      (fun n h => hn n (.inl h)) hh.left
    obtain ⟨b1, b2⟩ := uses_moved W ex ex' hit d new hd hex hl hst b _ _ a2 hp.2
      (fun n h => hn n (.inr h)) hh.right
    rw [a1, b1, moved_append]
    exact ⟨rfl, b2⟩
  | .block b, env, env', h, hp, hn, hh => by
    simp only [renameE, uses] at hh ⊢
    exact ⟨(uses_moved W ex ex' hit d new hd hex hl hst b env env' h hp hn hh).1, h⟩
  | .item b, env, env', h, hp, hn, hh => by
    simp only [renameE, uses] at hh ⊢
    exact uses_moved W ex ex' hit d new hd hex hl hst b env env' h hp.1 hn hh
  | .letPat p init, env, env', h, hp, hn, hh => by
    simp only [renameE, uses] at hh ⊢
    simp only [identifiers, List.mem_append] at hn
    obtain ⟨a1, a2⟩ := uses_moved W ex ex' hit d new hd hex hl hst init env env' h hp.1
      (fun n h => hn n (.inl h)) hh.left
    have hhp : Hits hit d (patPlaces p) := hh.right
    rw [a1, moved_append]
    refine ⟨?_, a2.pat hit p hhp (fun n h => hn n (.inr h))⟩
    congr 1
    exact pat_moved hit d new p hhp
  | .closure s name ps body, env, env', h, hp, hn, hh => by
    simp only [renameE, uses] at hh ⊢
    simp only [identifiers, List.mem_append] at hn
    have hs := hh (s, some (.decl (functionDef s name))) (by simp)
    simp only at hs
    have h1 := h.fun_at hit s name hd (fun n h => hn n (.inl h)) hs
    have hh2 : Hits hit d _ := fun x hx => hh x (List.mem_cons_of_mem _ hx)
    obtain ⟨a1, a2⟩ := params_moved W ex ex' hit d new hd hex hl hst env env' h ps _ _ h1
      name.toList hp.2.1 (fun n h => hn n (.inr (.inl h))) hh2.left
    obtain ⟨b1, b2⟩ := uses_moved W ex ex' hit d new hd hex hl hst body _ _ a2 hp.2.2
      (fun n h => hn n (.inr (.inr h))) hh2.right
    refine ⟨?_, h1⟩
    rw [a1, b1, moved_cons, moved_append]
    simp only [Option.map_some]
    rw [renamed_fun hit d new s name hd hs]
  | .destruct p v, env, env', h, hp, hn, hh => by
    obtain ⟨rfl, hp2⟩ := hp
    simp only [renameE, uses, renamePat, List.map_nil, List.append_nil] at hh ⊢
    simp only [identifiers, List.mem_append] at hn
    exact uses_moved W ex ex' hit d new hd hex hl hst v env env' h hp2
      (fun n h => hn n (.inr h)) hh
  | .forIn p iter body, env, env', h, hp, hn, hh => by
    simp only [renameE, uses] at hh ⊢
    simp only [identifiers, List.mem_append] at hn
    have hhp : Hits hit d (patPlaces p) := hh.left
    obtain ⟨a1, a2⟩ := uses_moved W ex ex' hit d new hd hex hl hst iter env env' h hp.1
      (fun n h => hn n (.inr (.inl h))) hh.right.left
    obtain ⟨b1, -⟩ := uses_moved W ex ex' hit d new hd hex hl hst body _ _
      (a2.pat hit p hhp (fun n h => hn n (.inl h))) hp.2.1
      (fun n h => hn n (.inr (.inr h))) hh.right.right
    refine ⟨?_, a2⟩
    rw [a1, b1, moved_append, moved_append]
    congr 1
    exact pat_moved hit d new p hhp
  | .ctx b, env, env', h, hp, hn, hh => by
    simp only [renameE, uses] at hh ⊢
    exact ⟨(uses_moved W ex ex' hit d new hd hex hl hst b env env' h hp.1 hn hh).1, h⟩
  | .imp i, env, env', h, hp, hn, hh => by
    simp only [renameE, uses] at hh ⊢
    exact import_moved W ex ex' hit d new hd hex hst i env env' h hp hn hh

theorem params_moved (W : World) (ex ex' : File → Env) (hit : Span → Bool) (d : Decl) (new : Name)
    (hd : d.Named) (hex : ∀ f, Renamed d new (ex f) (ex' f)) (hl : ∀ m, W.lib m new = none)
    (hst : ∀ f, W.stem f ≠ new) (outer outer' : Env) (ho : Renamed d new outer outer') :
    ∀ (ps : Ps) (env env' : Env), Renamed d new env env' → ∀ seen, PlainParams seen ps →
      (∀ n ∈ identifiersParams ps, n ≠ new) → Hits hit d (usesParams W ex outer ps env).1 →
      (usesParams W ex' outer' (renamePs hit new ps) env').1 =
          moved d new (usesParams W ex outer ps env).1 ∧
        Renamed d new (usesParams W ex outer ps env).2
          (usesParams W ex' outer' (renamePs hit new ps) env').2
  | .nil, env, env', h, _, _, _, _ => by
    simp only [renamePs, usesParams]
    exact ⟨rfl, h⟩
  | .pos p rest, env, env', h, seen, hp, hn, hh => by
    simp only [renamePs, usesParams] at hh ⊢
    simp only [identifiersParams, List.mem_append] at hn
    have hhp : Hits hit d (patPlaces p) := hh.left
    obtain ⟨a1, a2⟩ := params_moved W ex ex' hit d new hd hex hl hst outer outer' ho rest _ _
      (h.pat hit p hhp (fun n h => hn n (.inl h))) _ hp.2 (fun n h => hn n (.inr h)) hh.right
    refine ⟨?_, a2⟩
    rw [a1, moved_append]
    congr 1
    exact pat_moved hit d new p hhp
  | .named s n dflt rest, env, env', h, seen, hp, hn, hh => by
    simp only [renamePs, usesParams] at hh ⊢
    simp only [identifiersParams, List.mem_cons, List.mem_append] at hn
    have hs := hh.right (s, some (.decl (.var s n))) (by simp)
    simp only at hs
    obtain ⟨b1, -⟩ := uses_moved W ex ex' hit d new hd hex hl hst dflt _ _ ho hp.2.1
      (fun n h => hn n (.inr (.inl h))) hh.left
    have hh2 : Hits hit d _ := fun x hx => hh.right x (List.mem_cons_of_mem _ hx)
    obtain ⟨a1, a2⟩ := params_moved W ex ex' hit d new hd hex hl hst outer outer' ho rest _ _
      (h.var_at hit s n (hn n (.inl rfl)) hs) _ hp.2.2.2.2 (fun n h => hn n (.inr (.inr h))) hh2
    refine ⟨?_, a2⟩
    rw [a1, b1, moved_append, moved_cons]
    simp only [Option.map_some]
    rw [renamed_var hit d new s n (by rw [hs]; simp)]
  | .sink s n rest, env, env', h, seen, hp, hn, hh => by
    simp only [renamePs, usesParams] at hh ⊢
    simp only [identifiersParams, List.mem_cons] at hn
    have hs := hh (s, some (.decl (.var s n))) (by simp)
    simp only at hs
    have hh2 : Hits hit d _ := fun x hx => hh x (List.mem_cons_of_mem _ hx)
    obtain ⟨a1, a2⟩ := params_moved W ex ex' hit d new hd hex hl hst outer outer' ho rest _ _
      (h.var_at hit s n (hn n (.inl rfl)) hs) _ hp.2 (fun n h => hn n (.inr h)) hh2
    refine ⟨?_, a2⟩
    rw [a1, moved_cons]
    simp only [Option.map_some]
    rw [renamed_var hit d new s n (by rw [hs]; simp)]
  | .noSink s rest, env, env', h, seen, hp, hn, hh => by
    simp only [renamePs, usesParams] at hh ⊢
    simp only [identifiersParams] at hn
    have hh2 : Hits hit d _ := fun x hx => hh x (List.mem_cons_of_mem _ hx)
    obtain ⟨a1, a2⟩ := params_moved W ex ex' hit d new hd hex hl hst outer outer' ho rest _ _
      h _ hp hn hh2
    refine ⟨?_, a2⟩
    rw [a1, moved_cons]
    simp only [Option.map_some]
    rw [renamed_other]
    obtain ⟨s', n', rfl | rfl⟩ := hd <;> exact fun e => by cases e
end

end Tinymist.Scoping
