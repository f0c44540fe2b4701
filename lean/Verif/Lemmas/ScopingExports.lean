import Verif.Lemmas.Scoping
import Verif.Lemmas.Util

/-! # What a file exports -/
namespace Tinymist.Scoping

/-- Does the scope bind the name? -/
def holds (n : Name) : Scope → Bool
  | .lexical s => (s.lookup n).isSome
  | .builtin _ => false

def Lexical (s : Scope) : Prop := ∃ m, s = .lexical m

/-- In how many scopes is the name bound? -/
def holders (n : Name) (lex : Lex) : Nat := (lex.last :: lex.scopes).countP (holds n)

def AllLexical (lex : Lex) : Prop := ∀ s ∈ lex.last :: lex.scopes, Lexical s

theorem holders_eq (n : Name) (lex : Lex) :
    holders n lex = lex.scopes.countP (holds n) + (holds n lex.last).toNat := by
  rw [holders, List.countP_cons]
  cases holds n lex.last <;> rfl

theorem define_inv (m : Name) (e : Expr) (st : St) (h : AllLexical st.lex) :
    AllLexical (define m e st).lex ∧ (define m e st).lex.scopes = st.lex.scopes ∧
      ∀ n, holders n (define m e st).lex ≤ holders n st.lex + [m].count n := by
  obtain ⟨⟨scopes, last⟩, buf⟩ := st
  cases last with
  | builtin v => obtain ⟨m, hm⟩ := h (.builtin v) (by simp); cases hm
  | lexical s =>
    simp only [define]
    refine ⟨?_, trivial, ?_⟩
    · intro x hx
      rw [List.mem_cons] at hx
      rcases hx with rfl | hx
      · exact ⟨_, rfl⟩
      · exact h x (by rw [List.mem_cons]; exact .inr hx)
    · intro n
      rw [holders_eq, holders_eq]
      show List.countP (holds n) scopes + (holds n (.lexical (insert m e s))).toNat ≤
        List.countP (holds n) scopes + (holds n (.lexical s)).toNat + _
      have : holds n (.lexical (insert m e s)) = (decide (n = m) || holds n (.lexical s)) := by
        simp only [holds, lookup_insert]
        by_cases hn : n = m
        · simp [hn]
        · simp [hn]
      rw [this]
      by_cases hn : m = n
      · subst hn
        rw [List.count_singleton_self]
        cases holds m (.lexical s) <;> simp
      · have hd : decide (n = m) = false := by simpa using fun h => hn h.symm
        rw [hd, Bool.false_or]
        omega

theorem resolveAs_lex (s : Span) (r : RefExpr) (st : St) : (resolveAs s r st).lex = st.lex := rfl

theorem push_inv (W : World) (m : LexicalScope) (st : St) (h : AllLexical st.lex) :
    AllLexical (pushScope W (.lexical m) st).lex ∧
      ∀ n, holders n (pushScope W (.lexical m) st).lex ≤
        holders n st.lex + (m.lookup n).isSome.toNat := by
  refine ⟨?_, ?_⟩
  · intro x hx
    rw [pushScope, List.mem_cons] at hx
    rcases hx with rfl | hx
    · exact ⟨_, rfl⟩
    · simp only at hx
      split at hx
      · exact h x (by rw [List.mem_cons]; exact .inr hx)
      · rw [List.mem_append, List.mem_singleton] at hx
        apply h x
        rw [List.mem_cons]
        exact hx.symm
  · intro n
    rw [holders_eq, holders_eq, pushScope]
    show List.countP (holds n) (if _ then _ else _) + (m.lookup n).isSome.toNat ≤ _
    split
    · omega
    · rw [List.countP_append, List.countP_singleton]
      cases holds n st.lex.last <;> simp

theorem pat_inv (p : Pat) (st : St) (h : AllLexical st.lex) :
    AllLexical (checkPat p st).lex ∧ (checkPat p st).lex.scopes = st.lex.scopes ∧
      ∀ n, holders n (checkPat p st).lex ≤ holders n st.lex + (p.map (·.2)).count n := by
  induction p generalizing st with
  | nil => exact ⟨h, rfl, fun n => Nat.le_add_right _ _⟩
  | cons x p ih =>
    obtain ⟨s, m⟩ := x
    rw [checkPat]
    obtain ⟨a1, a2, a3⟩ := define_inv m (.decl (.var s m)) (resolveAs s (asDef (.var s m)) st) h
    obtain ⟨b1, b2, b3⟩ := ih _ a1
    refine ⟨b1, b2.trans a2, fun n => ?_⟩
    have h1 := a3 n
    have h2 := b3 n
    rw [resolveAs_lex] at h1
    have h3 : ((s, m).2 :: p.map (·.2)).count n = [m].count n + (p.map (·.2)).count n := by
      rw [← List.count_append]; rfl
    rw [List.map_cons, h3]
    omega

theorem items_inv (W : World) (scope : Scope) (l : List Item) (st : St)
    (h : AllLexical st.lex) :
    AllLexical (importItems W scope l st).lex ∧
      (importItems W scope l st).lex.scopes = st.lex.scopes ∧
      ∀ n, holders n (importItems W scope l st).lex ≤ holders n st.lex +
        (l.flatMap Item.binds).count n := by
  induction l generalizing st with
  | nil => exact ⟨h, rfl, fun n => Nat.le_add_right _ _⟩
  | cons it l ih =>
    have h1 : AllLexical (importItem W scope it st).lex ∧
        (importItem W scope it st).lex.scopes = st.lex.scopes ∧
        ∀ n, holders n (importItem W scope it st).lex ≤ holders n st.lex +
          it.binds.count n := by
      rw [importItem, Item.binds, Item.last]
      cases hl : it.path.getLast? with
      | none => exact ⟨h, rfl, fun n => Nat.le_add_right _ _⟩
      | some x =>
        obtain ⟨s, m⟩ := x
        simp only
        cases it.rename with
        | none =>
          simp only [Option.toList_some, List.map_cons, List.map_nil]
          obtain ⟨a1, a2, a3⟩ := define_inv m _ (resolveAs s _ st) h
          refine ⟨a1, a2, fun n => ?_⟩
          have := a3 n
          rw [resolveAs_lex] at this
          exact this
        | some a =>
          obtain ⟨s', m'⟩ := a
          simp only
          obtain ⟨a1, a2, a3⟩ := define_inv m' _ (resolveAs s' _ (resolveAs s _ st)) h
          refine ⟨a1, a2, fun n => ?_⟩
          have := a3 n
          rw [resolveAs_lex, resolveAs_lex] at this
          exact this
    obtain ⟨a1, a2, a3⟩ := h1
    obtain ⟨b1, b2, b3⟩ := ih _ a1
    rw [importItems]
    refine ⟨b1, b2.trans a2, fun n => ?_⟩
    have h1 := a3 n
    have h2 := b3 n
    rw [List.flatMap_cons, List.count_append]
    omega

theorem bindMod_inv (stmt : Span) (ref : RefExpr) (st : St) (h : AllLexical st.lex)
    (o : Option (Span × Name)) :
    AllLexical (bindMod stmt ref st o).lex ∧
      (bindMod stmt ref st o).lex.scopes = st.lex.scopes ∧
      ∀ n, holders n (bindMod stmt ref st o).lex ≤ holders n st.lex +
        (o.toList.map (·.2)).count n := by
  cases o with
  | none => exact ⟨h, rfl, fun n => Nat.le_add_right _ _⟩
  | some a =>
    obtain ⟨s, m⟩ := a
    exact define_inv m _ st h

theorem modVar_modName (W : World) (i : Import) (s : Span) (f : File) (h : i.src = .path s f) :
    modVar W i (some (.file f)) = modName W i (some (.decl (.module f))) := by
  obtain ⟨stmt, src, alias, what⟩ := i
  cases alias with
  | some a => rfl
  | none => cases what <;> rfl

theorem meaningOf_isSome (e : Option Expr) : (meaningOf (e, none)).isSome = e.isSome := by
  cases e with
  | none => rfl
  | some e => cases e with
    | decl d => rfl
    | other => rfl
    | ref r =>
      obtain ⟨x, y, z⟩ := r
      cases y with
      | none => rfl
      | some t => cases t <;> rfl

/-- The top level of a file. -/
theorem top_inv (W : World) (ex : File → LexicalScope) (exEnv : File → Env)
    (hex : SimExports ex exEnv) :
    ∀ (e : E) (st : St), Plain e → AllLexical st.lex →
      AllLexical (check W ex e st).lex ∧
      (noStar e = true → (check W ex e st).lex.scopes = st.lex.scopes) ∧
      ∀ n, n ≠ 0 → holders n (check W ex e st).lex ≤
        holders n st.lex + boundTimes W exEnv n e
  | .skip, st, _, h => by
    simp only [check, boundTimes]; exact ⟨h, fun _ => trivial, fun n _ => Nat.le_refl _⟩
  | .ident _ _ _, st, _, h => by
    simp only [check, boundTimes, resolveIdent, resolveAs]
    exact ⟨h, fun _ => trivial, fun n _ => Nat.le_refl _⟩
  | .seq a b, st, hp, h => by
    simp only [Plain] at hp
    simp only [check, boundTimes, noStar, Bool.and_eq_true]
    obtain ⟨a1, a2, a3⟩ := top_inv W ex exEnv hex a st hp.1 h
    obtain ⟨b1, b2, b3⟩ := top_inv W ex exEnv hex b _ hp.2 a1
    refine ⟨b1, fun hn => (b2 hn.2).trans (a2 hn.1), fun n hn => ?_⟩
    have h1 := a3 n hn
    have h2 := b3 n hn
    omega
  | .block b, st, _, h => by
    simp only [check, boundTimes]
    rw [withScope_scopes _ st (check_scopes W ex b)]
    exact ⟨h, fun _ => rfl, fun n _ => Nat.le_refl _⟩
  | .item b, st, _, h => by
    simp only [check, boundTimes]
    rw [withScope_scopes _ st (check_scopes W ex b)]
    exact ⟨h, fun _ => rfl, fun n _ => Nat.le_refl _⟩
  | .letPat p init, st, hp, h => by
    simp only [Plain] at hp
    simp only [check, boundTimes, noStar]
    obtain ⟨a1, a2, a3⟩ := top_inv W ex exEnv hex init st hp.1 h
    obtain ⟨b1, b2, b3⟩ := pat_inv p _ a1
    refine ⟨b1, fun hn => b2.trans (a2 hn), fun n hn => ?_⟩
    have h1 := a3 n hn
    have h2 := b3 n
    omega
  | .closure s name ps body, st, hp, h => by
    simp only [check, boundTimes]
    have hw : (withScope (fun st => check W ex body (checkParams W ex ps
        (define (funName name) (.decl (funDecl s name)) st)))
        (resolveAs s (asDef (funDecl s name)) st)).lex = st.lex :=
      withScope_scopes _ _ (fun st => ((define_scopes _ _ st).trans
        (checkParams_scopes W ex ps _)).trans (check_scopes W ex body _))
    have h' := h
    rw [← hw] at h'
    obtain ⟨a1, a2, a3⟩ := define_inv (funName name) (.decl (funDecl s name)) _ h'
    refine ⟨a1, fun _ => a2.trans (by rw [hw]), fun n hn => ?_⟩
    have h1 := a3 n
    rw [hw] at h1
    refine Nat.le_trans h1 ?_
    cases name with
    | none =>
      rw [funName, List.count_eq_zero.mpr (by simpa using hn)]
      exact Nat.le_add_right _ _
    | some m => exact Nat.le_refl _
  | .destruct p v, st, hp, h => by
    simp only [Plain] at hp
    obtain ⟨rfl, hv⟩ := hp
    simp only [check, checkPat, boundTimes, noStar]
    exact top_inv W ex exEnv hex v st hv h
  | .forIn p iter body, st, _, h => by
    simp only [check, boundTimes]
    rw [withScope_scopes _ st (fun st => ((checkPat_scopes p st).trans
      (check_scopes W ex iter _)).trans (check_scopes W ex body _))]
    exact ⟨h, fun _ => rfl, fun n _ => Nat.le_refl _⟩
  | .ctx b, st, hp, h => by
    simp only [Plain] at hp
    simp only [check, boundTimes, noStar]
    exact top_inv W ex exEnv hex b st hp.1 h
  | .imp i, st, hp, h => by
    obtain ⟨stmt, src, alias, what⟩ := i
    simp only [Plain] at hp
    obtain ⟨⟨s, f, rfl⟩, -, -⟩ := hp
    have hmv := modVar_modName W ⟨stmt, .path s f, alias, what⟩ s f rfl
    simp only [check, checkImport, checkSource, boundTimes, noStar, srcMeaning, Option.map_some,
      Mod.target]
    have h0 : AllLexical (resolveAs s ⟨none, some (.decl (.module f)), none⟩ st).lex := h
    obtain ⟨a1, a2, a3⟩ := bindMod_inv stmt ⟨none, some (.decl (.module f)), none⟩ _ h0
      (modVar W ⟨stmt, .path s f, alias, what⟩ (some (.file f)))
    rw [resolveAs_lex] at a2
    cases what with
    | bare =>
      refine ⟨a1, fun _ => a2, fun n _ => ?_⟩
      have h1 := a3 n
      rw [hmv] at h1
      rw [hmv]
      exact h1
    | star =>
      simp only [modScope, members]
      obtain ⟨b1, b3⟩ := push_inv W (ex f) _ a1
      refine ⟨b1, fun h => (by cases h), fun n hn => ?_⟩
      have h1 := a3 n
      have h2 := b3 n
      rw [resolveAs_lex] at h1
      have h3 : ((ex f).lookup n).isSome = (exEnv f n).isSome := by
        rw [← hex f n hn, meaningOf_isSome]
      rw [h3] at h2
      rw [hmv] at h1 h2
      rw [hmv]
      omega
    | items l =>
      simp only [modScope]
      obtain ⟨b1, b2, b3⟩ := items_inv W (.lexical (ex f)) l _ a1
      refine ⟨b1, fun _ => b2.trans a2, fun n _ => ?_⟩
      have h1 := a3 n
      have h2 := b3 n
      rw [resolveAs_lex] at h1
      rw [hmv] at h1 h2
      rw [hmv]
      omega

/-! ## Summaries -/

/-- The first scope of a list that binds the name. -/
def firstOf (n : Name) : List Scope → Option Expr
  | [] => none
  | .lexical s :: rest => (s.lookup n).or (firstOf n rest)
  | .builtin _ :: rest => firstOf n rest

theorem firstOf_append (n : Name) (a b : List Scope) :
    firstOf n (a ++ b) = (firstOf n a).or (firstOf n b) := by
  induction a with
  | nil => rfl
  | cons s a ih =>
    cases s with
    | lexical s => rw [List.cons_append, firstOf, firstOf, ih, Option.or_assoc]
    | builtin v => rw [List.cons_append, firstOf, firstOf, ih]

theorem lookup_merge (W : World) (n : Name) (s acc : LexicalScope) :
    (Scope.mergeInto W acc (.lexical s)).lookup n = (s.lookup n).or (acc.lookup n) := by
  rw [Scope.mergeInto]
  induction s with
  | nil => rfl
  | cons x s ih =>
    obtain ⟨m, e⟩ := x
    rw [List.foldr_cons, lookup_insert, lookup_cons]
    split
    · rfl
    · exact ih

theorem lookup_foldl (W : World) (n : Name) (l : List Scope) (acc : LexicalScope)
    (h : ∀ s ∈ l, Lexical s) :
    (l.foldl (fun acc s => Scope.mergeInto W acc s) acc).lookup n =
      (firstOf n l.reverse).or (acc.lookup n) := by
  induction l generalizing acc with
  | nil => rfl
  | cons s l ih =>
    rw [List.foldl_cons, ih _ (fun x hx => h x (by simp [hx])), List.reverse_cons, firstOf_append]
    cases s with
    | builtin v => obtain ⟨m, hm⟩ := h (.builtin v) (by simp); cases hm
    | lexical s =>
      rw [lookup_merge, firstOf, firstOf, Option.or_none, Option.or_assoc]

theorem getFirst_lexical (W : World) (n : Name) (l : List Scope) (h : ∀ s ∈ l, Lexical s) :
    meaningOf (getFirst W n l) = meaningOf (firstOf n l, none) := by
  induction l with
  | nil => rfl
  | cons s l ih =>
    cases s with
    | builtin v => obtain ⟨m, hm⟩ := h (.builtin v) (by simp); cases hm
    | lexical s =>
      rw [meaningOf_getFirst, ih (fun x hx => h x (by simp [hx])), Scope.get, firstOf]
      cases hs : s.lookup n with
      | none => rfl
      | some e =>
        have := meaningOf_isSome (some e)
        cases hm : meaningOf (some e, none) with
        | none => rw [hm] at this; cases this
        | some m => exact hm.symm

theorem firstOf_holds (n : Name) (l : List Scope) (h : l.countP (holds n) = 0) :
    firstOf n l = none := by
  induction l with
  | nil => rfl
  | cons s l ih =>
    rw [List.countP_cons] at h
    have h1 : l.countP (holds n) = 0 := by omega
    cases s with
    | builtin v => exact ih h1
    | lexical s =>
      rw [firstOf, ih h1]
      cases hs : s.lookup n with
      | none => rfl
      | some e =>
        have : holds n (.lexical s) = true := by rw [holds, hs]; rfl
        rw [this] at h
        simp at h

/-- The exports are what the scopes mean at the end. -/
theorem summarize_meaning (W : World) (lex : Lex) (n : Name) (hl : AllLexical lex)
    (h : lex.scopes = [] ∨ holders n lex ≤ 1) :
    meaningOf ((summarize W lex).lookup n, none) = lexMeaning W lex n := by
  rw [summarize, lookup_foldl W n _ _ hl, lexMeaning, getFirst_lexical W n _ (by
    intro s hs
    rw [List.mem_cons, List.mem_reverse] at hs
    exact hl s (by rw [List.mem_cons]; exact hs))]
  rw [List.reverse_cons, firstOf_append]
  show meaningOf (((firstOf n lex.scopes.reverse).or (firstOf n [lex.last])).or none, none) = _
  rw [Option.or_none]
  have hc : firstOf n (lex.last :: lex.scopes.reverse) =
      (firstOf n [lex.last]).or (firstOf n lex.scopes.reverse) :=
    firstOf_append n [lex.last] lex.scopes.reverse
  rw [hc]
  have hor : firstOf n lex.scopes.reverse = none ∨ firstOf n [lex.last] = none := by
    rcases h with h | h
    · left; rw [h]; rfl
    · rw [holders_eq] at h
      by_cases hh : holds n lex.last = true
      · left
        rw [hh, Bool.toNat_true] at h
        apply firstOf_holds
        rw [List.countP_reverse]
        omega
      · right
        apply firstOf_holds
        rw [List.countP_singleton, if_neg hh]
  rcases hor with h | h <;> rw [h] <;> simp

theorem init_sim (W : World) : Sim W St.init.lex Env.empty := fun _ _ => rfl

theorem init_lexical : AllLexical St.init.lex := by
  intro s hs
  rw [St.init] at hs
  simp only [List.mem_cons, List.not_mem_nil, or_false] at hs
  subst hs
  exact ⟨_, rfl⟩

theorem init_holders (n : Name) : holders n St.init.lex = 0 := rfl

/-- The exports of a plain file. -/
theorem file_exports (W : World) (ex : File → LexicalScope) (exEnv : File → Env)
    (hex : SimExports ex exEnv) (e : E) (hp : Plain e)
    (h : noStar e = true ∨ ∀ n, boundTimes W exEnv n e ≤ 1) (n : Name) (hn : n ≠ 0) :
    meaningOf ((summarize W (check W ex e St.init).lex).lookup n, none) =
      (uses W exEnv e Env.empty).2 n := by
  obtain ⟨a1, a2, a3⟩ := top_inv W ex exEnv hex e St.init hp init_lexical
  rw [summarize_meaning W _ n a1]
  · exact (check_sim W ex exEnv hex e St.init Env.empty hp (init_sim W)).1 n hn
  · rcases h with h | h
    · left; rw [a2 h]; rfl
    · right
      have h1 := a3 n hn
      have h2 := h n
      rw [init_holders] at h1
      omega

/-! ## Projects -/

theorem exportsAll_snoc (W : World) (files : List E) (e : E) :
    exportsAll W (files ++ [e]) = exportsAll W files ++
      [summarize W (check W (exportsOf (exportsAll W files)) e St.init).lex] := by
  rw [exportsAll, List.foldl_append]; rfl

theorem exportEnvs_snoc (W : World) (files : List E) (e : E) :
    exportEnvs W (files ++ [e]) = exportEnvs W files ++
      [(uses W (exportEnv (exportEnvs W files)) e Env.empty).2] := by
  rw [exportEnvs, List.foldl_append]; rfl

theorem lengths (W : World) (files : List E) :
    (exportsAll W files).length = files.length ∧ (exportEnvs W files).length = files.length := by
  induction files using Util.reverseInd with
  | nil => exact ⟨rfl, rfl⟩
  | append_singleton files e ih =>
    rw [exportsAll_snoc, exportEnvs_snoc]
    simp only [List.length_append, List.length_singleton]
    omega

theorem project_exports (W : World) (files : List E) (h : PlainProject W files) :
    SimExports (exportsOf (exportsAll W files)) (exportEnv (exportEnvs W files)) := by
  induction files using Util.reverseInd with
  | nil => intro f n _; rfl
  | append_singleton files e ih =>
    have hf : PlainProject W files := by
      intro k e' hk
      have hlt : k < files.length := by
        rcases Nat.lt_or_ge k files.length with h | h
        · exact h
        · rw [List.getElem?_eq_none h] at hk; cases hk
      have := h k e' (by rw [List.getElem?_append_left hlt]; exact hk)
      rwa [List.take_append_of_le_length (by omega)] at this
    have ih := ih hf
    have he := h files.length e (by simp)
    rw [List.take_left] at he
    intro f n hn
    rw [exportsAll_snoc, exportEnvs_snoc]
    obtain ⟨l1, l2⟩ := lengths W files
    rcases Nat.lt_trichotomy f files.length with hlt | heq | hgt
    · have := ih f n hn
      simp only [exportsOf, exportEnv, List.getD_eq_getElem?_getD] at this ⊢
      rw [List.getElem?_append_left (by omega), List.getElem?_append_left (by omega)]
      exact this
    · subst heq
      simp only [exportsOf, exportEnv, List.getD_eq_getElem?_getD]
      rw [List.getElem?_append_right (by omega), List.getElem?_append_right (by omega), l1, l2,
        Nat.sub_self]
      exact file_exports W _ _ ih e he.1 he.2 n hn
    · simp only [exportsOf, exportEnv, List.getD_eq_getElem?_getD]
      rw [List.getElem?_append_right (by omega), List.getElem?_append_right (by omega),
        List.getElem?_eq_none (by simp; omega), List.getElem?_eq_none (by simp; omega)]
      rfl

end Tinymist.Scoping
