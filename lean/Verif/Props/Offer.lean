import Verif.Spec.Offer

/-!
# The names offered at a cursor (C132)
-/

namespace Tinymist.Offer

open Spec

variable {τ : Type}

/-! ## Bindings -/

theorem get_append (a b : Env τ) (n : String) : valueOf (a ++ b) n = (valueOf a n).or (valueOf b n) := by
  rw [valueOf, valueOf, valueOf, List.find?_append]
  cases a.find? (·.name = n) <;> rfl

theorem get_cons (b : Binding τ) (l : Env τ) (n : String) :
    valueOf (b :: l) n = if b.name = n then some b.ty else valueOf l n := by
  rw [valueOf, valueOf, List.find?_cons]
  by_cases h : b.name = n <;> simp [h]

theorem get_none {l : Env τ} {n : String} (h : ∀ b ∈ l, b.name ≠ n) : valueOf l n = none := by
  rw [valueOf, List.find?_eq_none.mpr (by simpa using h)]
  rfl

theorem bind_eq (bs : List (Binding τ)) (env : Env τ) : bindAll bs env = bs.reverse ++ env := by
  rw [bindAll]
  induction bs generalizing env with
  | nil => rfl
  | cons b bs ih => rw [List.foldl_cons, ih, List.reverse_cons, List.append_assoc]; rfl

theorem get_reverse {bs : List (Binding τ)} (h : Distinct bs) (n : String) : valueOf bs.reverse n = valueOf bs n := by
  induction bs with
  | nil => rfl
  | cons b bs ih =>
    rw [Distinct, List.map_cons, List.nodup_cons] at h
    rw [List.reverse_cons, get_append, ih h.2, get_cons, get_cons]
    by_cases hb : b.name = n
    · rw [if_pos hb, if_pos hb, get_none]
      · rfl
      · intro c hc hn
        exact h.1 (List.mem_map.mpr ⟨c, hc, hn.trans hb.symm⟩)
    · rw [if_neg hb, if_neg hb]
      cases valueOf bs n <;> rfl

theorem get_bind {bs : List (Binding τ)} (h : Distinct bs) (env : Env τ) (n : String) :
    valueOf (bindAll bs env) n = (valueOf bs n).or (valueOf env n) := by
  rw [bind_eq, get_append, get_reverse h]

/-! ## The map of definitions -/

theorem lookup_append (a b : Defines τ) (n : String) : (a ++ b).lookup n = (a.lookup n).or (b.lookup n) := by
  induction a with
  | nil => rfl
  | cons x a ih =>
    rw [List.cons_append, List.lookup_cons, List.lookup_cons]
    cases n == x.1 with
    | true => rfl
    | false => exact ih

theorem lookup_insert (d : Defines τ) (b : Binding τ) {n : String} (hn : n ≠ "") :
    (insert d b).lookup n = (d.lookup n).or (valueOf [b] n) := by
  rw [insert, get_cons, show valueOf ([] : Env τ) n = none from rfl]
  by_cases he : b.name = ""
  · rw [if_pos he, if_neg (by rw [he]; exact hn.symm)]
    cases d.lookup n <;> rfl
  · rw [if_neg he]
    by_cases hb : b.name = n
    · subst hb
      rw [if_pos rfl]
      cases hl : d.lookup b.name with
      | some t => simp [hl]
      | none =>
        rw [if_neg (by simp), lookup_append, hl, List.lookup_cons]
        simp
    · rw [if_neg hb]
      split
      · cases d.lookup n <;> rfl
      · rw [lookup_append, List.lookup_cons, show (n == b.name) = false by simpa using Ne.symm hb]
        rfl

theorem lookup_foldl (bs : List (Binding τ)) (d : Defines τ) {n : String} (hn : n ≠ "") :
    (bs.foldl insert d).lookup n = (d.lookup n).or (valueOf bs n) := by
  induction bs generalizing d with
  | nil =>
    rw [List.foldl_nil, show valueOf ([] : Env τ) n = none from rfl]
    cases d.lookup n <;> rfl
  | cons b bs ih =>
    rw [List.foldl_cons, ih, lookup_insert d b hn, ← List.singleton_append (l := bs), get_append]
    cases d.lookup n <;> rfl

/-! ## Declarations of a node -/

/-- What the visit of an item inserts. -/
def given (i : PreviousItem τ) : List (Binding τ) := (itemDecls i).flatMap provided

theorem idents (bs : List (Binding τ)) : (bs.map PreviousDecl.ident).flatMap provided = bs := by
  induction bs with
  | nil => rfl
  | cons b bs ih => rw [List.map_cons, List.flatMap_cons, ih]; rfl

theorem params_given (ps : List (Param τ)) : given (.parent (.fnBody ps)) = ps.flatMap bound := by
  rw [given, itemDecls]
  induction ps with
  | nil => rfl
  | cons p ps ih =>
    rw [List.flatMap_cons, List.flatMap_append, ih, List.flatMap_cons]
    congr 1
    match p with
    | .pos bs => exact idents bs
    | .named b => rfl
    | .spread none => rfl
    | .spread (some b) => rfl

mutual
theorem run_append (i : Item τ) (env : Env τ) : run i env = run i [] ++ env := by
  match i with
  | .letB bs => rw [run, run, bind_eq, bind_eq]; simp
  | .letFn b => rw [run, run]; rfl
  | .imports i =>
    obtain ⟨imp, nn, src⟩ := i
    rw [run, run, runImport, runImport]
    cases imp with
    | none => cases nn <;> cases src <;> rfl
    | some p => cases p <;> cases nn <;> cases src <;> simp [bind_eq]
  | .nested items => rw [run, run]; exact runAll_append items env
  | .code items => rw [run, run]; exact runAll_append items env
  | .closing => rw [run, run]; rfl
  | .other => rw [run, run]; rfl
theorem runAll_append (l : List (Item τ)) (env : Env τ) : runAll l env = runAll l [] ++ env := by
  match l with
  | [] => rw [runAll, runAll]; rfl
  | i :: l =>
    rw [runAll, runAll, runAll_append l (run i env), runAll_append l (run i []), run_append i env, List.append_assoc]
end

theorem get_run {i : Item τ} {n : String} (hv : Item.Valid i)
    (hn : ∀ items, i = .nested items ∨ i = .code items → ∀ b ∈ runAll items [], b.name ≠ n)
    (ht : ∀ im bs, i = .imports im → im.imports = some (.items bs) → Distinct bs) (env : Env τ) :
    valueOf (run i env) n = (valueOf (given (.sibling i)) n).or (valueOf env n) := by
  match i with
  | .letB bs =>
    rw [run, get_bind hv, given, itemDecls, idents]
  | .letFn b =>
    rw [run, given, itemDecls, ← List.singleton_append, get_append]
    rfl
  | .nested items =>
    rw [run, runAll_append, get_append, get_none (hn items (.inl rfl))]
    rfl
  | .code items =>
    rw [run, runAll_append, get_append, get_none (hn items (.inr rfl))]
    rfl
  | .closing => rw [run]; rfl
  | .other => rw [run]; rfl
  | .imports ⟨imp, nn, src⟩ =>
    rw [run, runImport, given, itemDecls, importDecls, List.flatMap_append, get_append]
    match imp, nn, src with
    | none, none, none => rfl
    | none, none, some m => simp only [Option.isNone]; exact get_append [m.self] env n
    | none, some b, none => exact get_append [b] env n
    | none, some b, some m => exact get_append [b] env n
    | some (.items bs), none, none => simp only [get_bind (ht _ bs rfl rfl), idents]; simp [valueOf]
    | some (.items bs), none, some m => simp only [get_bind (ht _ bs rfl rfl), idents]; simp [valueOf]
    | some (.items bs), some b, none =>
      simp only [get_bind (ht _ bs rfl rfl), idents]
      rw [← List.singleton_append, get_append]
      cases valueOf bs n <;> rfl
    | some (.items bs), some b, some m =>
      simp only [get_bind (ht _ bs rfl rfl), idents]
      rw [← List.singleton_append, get_append]
      cases valueOf bs n <;> rfl
    | some .wildcard, none, none => rfl
    | some .wildcard, none, some m =>
      simp only [get_bind (hv m rfl)]
      simp [provided, valueOf]
    | some .wildcard, some b, none => exact get_append [b] env n
    | some .wildcard, some b, some m =>
      simp only [get_bind (hv m rfl)]
      rw [← List.singleton_append, get_append]
      cases h : valueOf m.members n <;> simp [provided, h]

theorem given_code (items : List (Item τ)) : given (.sibling (.code items)) = [] := rfl

theorem behind_code {f : Frame τ} {i : Item τ} (h : behind f i = true) : ∃ items, i = .code items := by
  cases i with
  | code items => exact ⟨items, rfl⟩
  | _ => cases hs : f.self <;> simp [behind, hs] at h

/-- The nodes to the left of a node. -/
theorem get_left (f : Frame τ) (n : String) (l : List (Item τ)) (hv : ∀ i ∈ l, Item.Valid i)
    (hn : ∀ i ∈ l, behind f i = false → ∀ items, i = .nested items ∨ i = .code items → ∀ b ∈ runAll items [], b.name ≠ n)
    (ht : ∀ i bs, .imports i ∈ l → i.imports = some (.items bs) → Distinct bs) (env : Env τ) :
    valueOf (runAll (l.filter (fun i => !behind f i)) env) n =
      (valueOf (l.reverse.flatMap (fun i => given (.sibling i))) n).or (valueOf env n) := by
  induction l generalizing env with
  | nil => rw [List.filter_nil, runAll]; rfl
  | cons i l ih =>
    have ih := ih (fun j hj => hv j (.tail _ hj)) (fun j hj => hn j (.tail _ hj)) (fun im bs h => ht im bs (.tail _ h))
    rw [List.reverse_cons, List.flatMap_append, get_append, List.flatMap_cons, List.flatMap_nil, List.append_nil]
    cases hb : behind f i with
    | true =>
      obtain ⟨items, rfl⟩ := behind_code hb
      rw [List.filter_cons_of_neg (by rw [hb]; decide), ih, given_code]
      cases valueOf (l.reverse.flatMap fun i => given (.sibling i)) n <;> rfl
    | false =>
      rw [List.filter_cons_of_pos (by rw [hb]; rfl), runAll, ih,
        get_run (hv i (.head _)) (hn i (.head _) hb) (fun im bs h => ht im bs (by rw [h]; exact .head _))]
      cases valueOf (l.reverse.flatMap fun i => given (.sibling i)) n <;> rfl

/-! ## The path -/

/-- What is inserted for a path. -/
def inserted (path : List (Frame τ)) : List (Binding τ) := (previousDecls path).flatMap provided

theorem inserted_cons (f : Frame τ) (up : List (Frame τ)) :
    inserted (f :: up) = given (.sibling f.self) ++ f.left.reverse.flatMap (fun i => given (.sibling i)) ++
      given (.parent f.cross) ++ inserted up := by
  rw [inserted, previousDecls, previousItems, List.flatMap_append, List.flatMap_append, List.flatMap_cons, List.flatMap_cons,
    List.flatMap_append, List.flatMap_append]
  have : ∀ l : List (Item τ), List.flatMap provided (List.flatMap itemDecls (l.map PreviousItem.sibling)) =
      l.flatMap (fun i => given (.sibling i)) := by
    intro l
    induction l with
    | nil => rfl
    | cons i l ih => rw [List.map_cons, List.flatMap_cons, List.flatMap_append, ih]; rfl
  rw [this]
  simp only [given, inserted, previousDecls, List.append_assoc]

theorem scopeAt_plain {f : Frame τ} {up : List (Frame τ)} (hs : ∀ b, f.self ≠ .letFn b) (hc : f.cross = .plain) :
    (scopeAt (f :: up)).2 = (scopeAt up).2 := by
  obtain ⟨self, left, cross⟩ := f
  rw [scopeAt]
  cases hc
  cases self with
  | letFn b => exact absurd rfl (hs b)
  | _ => rfl

theorem scopeAt_body {f : Frame τ} {up : List (Frame τ)} (hs : ∀ b, f.self ≠ .letFn b) (hc : f.cross ≠ .plain) :
    (scopeAt (f :: up)).2 = none := by
  obtain ⟨self, left, cross⟩ := f
  rw [scopeAt]
  cases self with
  | letFn b => exact absurd rfl (hs b)
  | _ => cases cross with
    | plain => exact absurd rfl hc
    | _ => rfl

/-- Where a function with a name comes from whose body is not entered yet. -/
theorem pending {suf : List (Frame τ)} {b : Binding τ} (h : (scopeAt suf).2 = some b) :
    ∃ mid z up, suf = mid ++ z :: up ∧ z.self = .letFn b ∧ ∀ m ∈ mid, m.cross = .plain := by
  induction suf with
  | nil => cases h
  | cons f up ih =>
    by_cases hfn : ∃ b', f.self = .letFn b'
    · obtain ⟨b', hs⟩ := hfn
      rw [scopeAt] at h
      simp only [hs] at h
      cases h
      exact ⟨[], f, up, rfl, hs, fun m hm => by cases hm⟩
    · have hs : ∀ b', f.self ≠ .letFn b' := fun b' h => hfn ⟨b', h⟩
      cases hc : f.cross with
      | plain =>
        rw [scopeAt_plain hs hc] at h
        obtain ⟨mid, z, up', rfl, hz, hm⟩ := ih h
        refine ⟨f :: mid, z, up', rfl, hz, fun m hm' => ?_⟩
        rcases List.mem_cons.mp hm' with rfl | hm'
        · exact hc
        · exact hm m hm'
      | _ =>
        rw [scopeAt_body hs (by rw [hc]; intro h; cases h)] at h
        cases h

theorem get_inserted {n : String} {path : List (Frame τ)} (hv : Valid path) (hne : NotNested n path) (ht : NotTwice path)
    (ho : NotOwn n path) (pre suf : List (Frame τ)) (hp : path = pre ++ suf) :
    valueOf (inserted suf) n = (valueOf (scopeAt suf).2.toList n).or (valueOf (scopeAt suf).1 n) := by
  induction suf generalizing pre with
  | nil => rfl
  | cons f up ih =>
    have ih := ih (pre ++ [f]) (by rw [hp]; simp)
    have hf : f ∈ path := by rw [hp]; simp
    obtain ⟨hv1, hv2, hv3⟩ := hv f hf
    have hl := get_left f n f.left hv3 (hne f hf) (fun i bs h => ht f hf i bs (.inr h))
    -- what the node itself declares
    have hself : ∀ (b : Binding τ), f.self = .letFn b → given (.sibling f.self) = [b] := by
      intro b hb
      rw [hb]
      rfl
    have hother : (∀ b, f.self ≠ .letFn b) → valueOf (given (.sibling f.self)) n = none := by
      intro hb
      cases hs : f.self with
      | letB bs =>
        rw [given, itemDecls, idents]
        exact get_none (ho.1 f hf bs hs)
      | letFn b => exact absurd hs (hb b)
      | imports i => exact absurd hs (ho.2.1 f hf i)
      | _ => rfl
    -- a function not entered yet
    have hpend : ∀ b, (scopeAt up).2 = some b → b.name = n →
        (f.self = .other ∧ f.left = [.other] ∧ f.cross = .plain) ∨ ∃ ps, f.cross = .fnBody ps := by
      intro b hb hbn
      obtain ⟨mid, z, up', rfl, hz, hm⟩ := pending hb
      obtain ⟨pre', g, c, ps, he, hg, hc1, hc2, hc3⟩ :=
        ho.2.2 (pre ++ f :: mid) z up' b (by rw [hp]; simp) hz hbn
      have hgm : g ∉ mid := fun h => by
        have := hm g h
        rw [hg] at this
        cases this
      match mid, he, hgm with
      | [], he, _ =>
        rw [show pre' ++ [g, c] = (pre' ++ [g]) ++ [c] by simp] at he
        obtain ⟨-, h2⟩ := List.append_inj' he rfl
        cases h2
        exact .inl ⟨hc2, hc3, hc1⟩
      | [m], he, _ =>
        obtain ⟨-, h2⟩ := List.append_inj' (show pre ++ [f, m] = pre' ++ [g, c] from he) rfl
        cases h2
        exact .inr ⟨ps, hg⟩
      | m1 :: m2 :: mid, he, hgm =>
        exfalso
        apply hgm
        have hlast := congrArg (fun l => l.reverse[1]?) he
        simp only [List.reverse_append, List.reverse_cons, List.append_assoc] at hlast
        simp only [List.reverse_nil, List.nil_append, List.singleton_append, List.cons_append, List.getElem?_cons_succ,
          List.getElem?_cons_zero] at hlast
        have hlen : 1 < (mid.reverse ++ [m2, m1]).length := by simp
        have e : (mid.reverse ++ m2 :: m1 :: (f :: pre.reverse))[1]? = (mid.reverse ++ [m2, m1])[1]? := by
          rw [show mid.reverse ++ m2 :: m1 :: (f :: pre.reverse) = (mid.reverse ++ [m2, m1]) ++ (f :: pre.reverse) by simp,
            List.getElem?_append_left hlen]
        rw [e] at hlast
        have := List.mem_of_getElem? hlast
        simp at this
        simp
        rcases this with h | h | h
        · exact .inr (.inr h)
        · exact .inr (.inl h)
        · exact .inl h
    have hnone : (∀ ps, f.cross ≠ .fnBody ps) → ¬ (f.self = .other ∧ f.left = [.other] ∧ f.cross = .plain) →
        valueOf (scopeAt up).2.toList n = none := by
      intro h1 h2
      cases hfn : (scopeAt up).2 with
      | none => rfl
      | some b =>
        by_cases hb : b.name = n
        · rcases hpend b hfn hb with h | ⟨ps, h⟩
          · exact absurd h h2
          · exact absurd h (h1 ps)
        · exact get_none fun c hc => by
            rw [List.mem_singleton.mp hc]
            exact hb
    by_cases hfnl : ∃ b, f.self = .letFn b
    · obtain ⟨b, hb⟩ := hfnl
      rw [inserted_cons, get_append, get_append, get_append, ih, scopeAt, hself b hb]
      simp only
      rw [hl]
      simp only [hb]
      generalize valueOf (f.left.reverse.flatMap fun i => given (.sibling i)) n = L
      cases hc : f.cross with
      | plain =>
        rw [hnone (by simp [hc]) (by simp [hb]), show given (.parent (.plain : Cross τ)) = [] from rfl]
        cases L <;> simp [valueOf]
      | fnHead =>
        rw [hnone (by simp [hc]) (by simp [hb]), show given (.parent (.fnHead : Cross τ)) = [] from rfl]
        cases L <;> simp [valueOf]
      | forBody p =>
        rw [hc] at hv1
        rw [hnone (by simp [hc]) (by simp [hb]), given, itemDecls, idents]
        simp only [get_bind (show Distinct p from hv1)]
        simp [Option.or_assoc]
      | fnBody ps =>
        rw [hc] at hv1
        rw [params_given]
        simp only [get_bind (show Distinct (ps.flatMap bound) from hv1)]
        rw [get_append]
        simp [Option.or_assoc]
    · have hs : ∀ b, f.self ≠ .letFn b := fun b h => hfnl ⟨b, h⟩
      rw [inserted_cons, get_append, get_append, get_append, ih, hother hs]
      have hfst : (scopeAt (f :: up)).1 = runAll (f.left.filter (fun i => !behind f i)) (match f.cross with
          | .forBody pattern => bindAll pattern (scopeAt up).1
          | .fnBody params => bindAll (params.flatMap bound) ((scopeAt up).2.toList ++ (scopeAt up).1)
          | .fnHead => (scopeAt up).1
          | .plain => (scopeAt up).1) := by
        rw [scopeAt]
        rfl
      rw [hfst, hl]
      cases hc : f.cross with
      | plain =>
        rw [scopeAt_plain hs hc, show given (.parent (.plain : Cross τ)) = [] from rfl]
        by_cases hcl : f.self = .other ∧ f.left = [.other] ∧ f.cross = .plain
        · rw [hcl.2.1]
          rfl
        · rw [hnone (by simp [hc]) hcl]
          simp [valueOf]
      | fnHead =>
        rw [scopeAt_body hs (by rw [hc]; intro h; cases h), hnone (by simp [hc]) (by simp [hc]),
          show given (.parent (.fnHead : Cross τ)) = [] from rfl]
        simp [valueOf]
      | forBody p =>
        rw [hc] at hv1
        rw [scopeAt_body hs (by rw [hc]; intro h; cases h), hnone (by simp [hc]) (by simp [hc]), given, itemDecls, idents]
        simp only [get_bind (show Distinct p from hv1)]
        rw [show valueOf (none : Option (Binding τ)).toList n = none from rfl]
        simp only [Option.none_or, Option.or_assoc]
      | fnBody ps =>
        rw [hc] at hv1
        rw [scopeAt_body hs (by rw [hc]; intro h; cases h), params_given]
        simp only [get_bind (show Distinct (ps.flatMap bound) from hv1)]
        rw [get_append]
        rw [show valueOf (none : Option (Binding τ)).toList n = none from rfl]
        simp only [Option.none_or, Option.or_assoc]

/-- C132: a name is offered at a cursor exactly if it is in scope there, and with the type of the declaration it stands
for.

Partial: names that are bound in a heading, a list item, strong text or the like before the cursor are not found, nor are
those of a block when the cursor is in the blanks at its end (`heading_not_offered`, `end_of_block_not_offered`); names
of a `let` are offered within it (`own_name_offered`); and of two equal names in one import the first is taken
(`import_twice`). -/
theorem offered_partial (lib : List (Binding τ)) (std : τ) (path : List (Frame τ)) (n : String) (hn : n ≠ "")
    (hv : Valid path) (hne : NotNested n path) (ht : NotTwice path) (ho : NotOwn n path) :
    (scopeDefs lib std path).lookup n = visible lib std path n := by
  have h := get_inserted hv hne ht ho [] path rfl
  have hp : valueOf (scopeAt path).2.toList n = none := by
    cases hfn : (scopeAt path).2 with
    | none => rfl
    | some b =>
      refine get_none fun c hc => ?_
      rw [List.mem_singleton.mp hc]
      intro hb
      obtain ⟨mid, z, up', he, hz, hm⟩ := pending hfn
      obtain ⟨pre', g, c, ps, he', hg, -⟩ := ho.2.2 mid z up' b he hz hb
      have := hm g (by rw [he']; simp)
      rw [hg] at this
      cases this
  rw [hp, Option.none_or] at h
  rw [scopeDefs, lookup_insert _ _ hn, lookup_foldl _ _ hn, lookup_foldl _ _ hn]
  rw [show ((previousDecls path).flatMap provided) = inserted path from rfl, h, visible, get_append, get_append]
  rfl

/-! ## Where it goes wrong -/

/-- C132, what does not hold: a name bound in a heading or an item, which is no block, is in scope behind it, and is not
offered. -/
theorem heading_not_offered (b : Binding τ) (hb : b.name ≠ "") (hs : b.name ≠ "std") (std : τ) :
    let path : List (Frame τ) := [⟨.other, [.nested [.letB [b]]], .plain⟩]
    (scopeDefs [] std path).lookup b.name = none ∧ visible [] std path b.name = some b.ty := by
  refine ⟨?_, ?_⟩
  · rw [scopeDefs, lookup_insert _ _ hb, lookup_foldl _ _ hb, lookup_foldl _ _ hb]
    simp [previousDecls, previousItems, itemDecls, valueOf, hs.symm]
  · simp [visible, scopeAt, behind, runAll, run, bindAll, valueOf]

/-- C132, what does not hold: on the blank at the end of a block, as on a new line before its brace, the names of the
block are not offered. -/
theorem end_of_block_not_offered (b : Binding τ) (hb : b.name ≠ "") (hs : b.name ≠ "std") (std : τ) :
    let path : List (Frame τ) := [⟨.other, [.other, .code [.letB [b]]], .plain⟩, ⟨.other, [.other], .plain⟩]
    (scopeDefs [] std path).lookup b.name = none ∧ visible [] std path b.name = some b.ty := by
  refine ⟨?_, ?_⟩
  · rw [scopeDefs, lookup_insert _ _ hb, lookup_foldl _ _ hb, lookup_foldl _ _ hb]
    simp [previousDecls, previousItems, itemDecls, valueOf, hs.symm]
  · simp [visible, scopeAt, behind, runAll, run, bindAll, valueOf]

/-- C132, what does not hold: in `let x = …` the `x` that is offered is the one being defined, not the one in scope. -/
theorem own_name_offered (n : String) (hn : n ≠ "") (old new : τ) (std : τ) :
    let path : List (Frame τ) := [⟨.other, [.other, .other, .other], .plain⟩, ⟨.letB [⟨n, new⟩], [.letB [⟨n, old⟩]], .plain⟩]
    (scopeDefs [] std path).lookup n = some new ∧ visible [] std path n = some old := by
  refine ⟨?_, ?_⟩
  · rw [scopeDefs, lookup_insert _ _ hn, lookup_foldl _ _ hn, lookup_foldl _ _ hn]
    simp [previousDecls, previousItems, itemDecls, provided, valueOf]
  · simp [visible, scopeAt, behind, runAll, run, bindAll, valueOf]

/-- C132, what does not hold: of `#import "a.typ": x, y as x` the last one counts, and the first one is offered. -/
theorem import_twice (n : String) (hn : n ≠ "") (first last std : τ) :
    let path : List (Frame τ) := [⟨.other, [.imports ⟨some (.items [⟨n, first⟩, ⟨n, last⟩]), none, none⟩], .plain⟩]
    (scopeDefs [] std path).lookup n = some first ∧ visible [] std path n = some last := by
  refine ⟨?_, ?_⟩
  · rw [scopeDefs, lookup_insert _ _ hn, lookup_foldl _ _ hn, lookup_foldl _ _ hn]
    simp [previousDecls, previousItems, itemDecls, importDecls, provided, valueOf]
  · simp [visible, scopeAt, behind, runAll, run, runImport, bindAll, valueOf]

/-! ## A case -/

/-- The cursor at the end of `#let a = 1; #let f(x, a: 2) = { for i in x { y` with `x`, `i`, `a` and `f` in scope. -/
def sample : List (Frame Nat) :=
  [⟨.other, [], .plain⟩, ⟨.other, [.other], .plain⟩, ⟨.other, [.other, .other, .other, .other], .forBody [⟨"i", 5⟩]⟩,
    ⟨.other, [], .plain⟩, ⟨.other, [.other], .plain⟩,
    ⟨.other, [.other, .other, .other], .fnBody [.pos [⟨"x", 3⟩], .named ⟨"a", 4⟩]⟩,
    ⟨.other, [.other], .plain⟩, ⟨.letFn ⟨"f", 2⟩, [.other, .letB [⟨"a", 1⟩], .other], .plain⟩]

example : (["i", "x", "a", "f", "y"].map fun n => (scopeDefs [] 0 sample).lookup n) = [some 5, some 3, some 4, some 2, none] := by
  decide

theorem sample_valid : Valid sample ∧ NotTwice sample ∧ NotNested "f" sample ∧ NotOwn "f" sample := by
  refine ⟨?_, ?_, ?_, ?_, ?_, ?_⟩
  · intro f hf
    simp only [sample, List.mem_cons, List.not_mem_nil, or_false] at hf
    rcases hf with rfl | rfl | rfl | rfl | rfl | rfl | rfl | rfl <;>
      simp [Cross.Valid, Item.Valid, Distinct, bound]
  · intro f hf i bs h
    simp only [sample, List.mem_cons, List.not_mem_nil, or_false] at hf
    rcases hf with rfl | rfl | rfl | rfl | rfl | rfl | rfl | rfl <;> simp at h
  · intro f hf i hi _ items h
    simp only [sample, List.mem_cons, List.not_mem_nil, or_false] at hf
    rcases hf with rfl | rfl | rfl | rfl | rfl | rfl | rfl | rfl <;> (rcases h with rfl | rfl <;> simp at hi)
  · intro f hf bs h
    simp only [sample, List.mem_cons, List.not_mem_nil, or_false] at hf
    rcases hf with rfl | rfl | rfl | rfl | rfl | rfl | rfl | rfl <;> cases h
  · intro f hf i h
    simp only [sample, List.mem_cons, List.not_mem_nil, or_false] at hf
    rcases hf with rfl | rfl | rfl | rfl | rfl | rfl | rfl | rfl <;> cases h
  · intro pre f up b h hs _
    match pre, h with
    | [], h => cases h; cases hs
    | [_], h => cases h; cases hs
    | [_, _], h => cases h; cases hs
    | [_, _, _], h => cases h; cases hs
    | [_, _, _, _], h => cases h; cases hs
    | [_, _, _, _, _], h => cases h; cases hs
    | [_, _, _, _, _, _], h => cases h; cases hs
    | [a1, a2, a3, a4, a5, a6, a7], h =>
      simp only [sample, List.cons_append, List.nil_append, List.cons.injEq] at h
      obtain ⟨rfl, rfl, rfl, rfl, rfl, rfl, rfl, rfl, rfl⟩ := h
      exact ⟨[_, _, _, _, _], _, _, _, rfl, rfl, rfl, rfl, rfl⟩
    | _ :: _ :: _ :: _ :: _ :: _ :: _ :: _ :: _, h => simp [sample] at h

example : (scopeDefs [] 0 sample).lookup "f" = visible [] 0 sample "f" :=
  offered_partial [] 0 sample "f" (by decide) sample_valid.1 sample_valid.2.2.1 sample_valid.2.1 sample_valid.2.2.2

end Tinymist.Offer
