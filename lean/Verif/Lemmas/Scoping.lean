import Verif.Spec.Scoping

/-! # Lemmas about scoping -/
namespace Tinymist.Scoping

/-! ## Maps -/

theorem lookup_cons (m n : Name) {α : Type} (e : α) (s : List (Name × α)) :
    List.lookup m ((n, e) :: s) = if m = n then some e else List.lookup m s := by
  rw [List.lookup_cons]
  by_cases h : m = n
  · subst h; simp
  · have : (m == n) = false := by simpa using h
    rw [this, if_neg h]

theorem lookup_filter (m n : Name) (s : LexicalScope) (h : m ≠ n) :
    List.lookup m (s.filter (fun x => x.1 != n)) = List.lookup m s := by
  induction s with
  | nil => rfl
  | cons x s ih =>
    obtain ⟨k, e⟩ := x
    rw [List.filter_cons]
    by_cases hk : k = n
    · subst hk
      simp only [bne_self_eq_false, Bool.false_eq_true, if_false]
      rw [ih, lookup_cons, if_neg h]
    · have : (k != n) = true := by simpa using hk
      simp only [this, if_true]
      rw [lookup_cons, lookup_cons, ih]

theorem lookup_insert (m n : Name) (e : Expr) (s : LexicalScope) :
    List.lookup m (insert n e s) = if m = n then some e else List.lookup m s := by
  rw [insert, lookup_cons]
  split
  · rfl
  · rename_i h; exact lookup_filter m n s h

theorem lookupLast_append {α : Type} (s : Span) (a b : List (Span × α)) :
    lookupLast s (a ++ b) = (lookupLast s b).or (lookupLast s a) := by
  induction a with
  | nil => simp [lookupLast]
  | cons x a ih =>
    obtain ⟨k, v⟩ := x
    rw [List.cons_append, lookupLast, ih, lookupLast]
    cases lookupLast s b <;> cases lookupLast s a <;> rfl

/-! ## Scopes as environments -/

/-- What an entry found in the scopes means. -/
def meaningOf : Option Expr × Option Val → Option Meaning
  | (some (.decl d), _) => some (.decl d)
  | (some (.ref ⟨_, some (.decl d), _⟩), _) => some (.decl d)
  | (some (.ref _), _) => some .unknown
  | (some .other, _) => some .unknown
  | (none, some v) => some (.value v)
  | (none, none) => none

theorem meaningOf_none (r : Option Expr × Option Val) :
    meaningOf r = none ↔ (r.1.isSome || r.2.isSome) = false := by
  obtain ⟨a, b⟩ := r
  cases a with
  | none => cases b <;> simp [meaningOf]
  | some e =>
    cases e with
    | decl d => simp [meaningOf]
    | other => simp [meaningOf]
    | ref r =>
      obtain ⟨x, y, z⟩ := r
      cases y with
      | none => simp [meaningOf]
      | some t => cases t <;> simp [meaningOf]

theorem meaningOf_getFirst (W : World) (n : Name) (s : Scope) (l : List Scope) :
    meaningOf (getFirst W n (s :: l)) =
      (meaningOf (s.get W n)).or (meaningOf (getFirst W n l)) := by
  rw [getFirst]
  by_cases h : ((s.get W n).1.isSome || (s.get W n).2.isSome) = true
  · rw [if_pos h]
    cases hm : meaningOf (s.get W n) with
    | none => rw [(meaningOf_none _).mp hm] at h; cases h
    | some x => rfl
  · rw [if_neg h]
    have hm : meaningOf (s.get W n) = none := (meaningOf_none _).mpr (by simpa using h)
    rw [hm]
    rfl

/-- What a name means in a lexical context. -/
def lexMeaning (W : World) (lex : Lex) (n : Name) : Option Meaning :=
  meaningOf (getFirst W n (lex.last :: lex.scopes.reverse))

theorem lexMeaning_eq (W : World) (lex : Lex) (n : Name) :
    lexMeaning W lex n = (meaningOf (lex.last.get W n)).or
      (meaningOf (getFirst W n lex.scopes.reverse)) := meaningOf_getFirst _ _ _ _

theorem lexMeaning_push (W : World) (scopes : List Scope) (s last : Scope) (n : Name) :
    lexMeaning W ⟨scopes ++ [s], last⟩ n =
      (meaningOf (last.get W n)).or (lexMeaning W ⟨scopes, s⟩ n) := by
  rw [lexMeaning_eq]
  show (meaningOf (last.get W n)).or (meaningOf (getFirst W n (scopes ++ [s]).reverse)) = _
  rw [List.reverse_append]
  rfl

theorem meaningOf_empty (W : World) (s : Scope) (n : Name) (h : s.isEmpty W = true) :
    meaningOf (s.get W n) = none := by
  cases s with
  | lexical s => cases s with
    | nil => rfl
    | cons x s => cases h
  | builtin v =>
    rw [Scope.isEmpty] at h
    rw [Scope.get, List.isEmpty_iff.mp h]; rfl

theorem lexMeaning_fresh (W : World) (lex : Lex) (n : Name) :
    lexMeaning W ⟨lex.scopes ++ [lex.last], .lexical []⟩ n = lexMeaning W lex n := by
  rw [lexMeaning_push]; rfl

theorem lexMeaning_define (W : World) (n : Name) (e : Expr) (st : St) (x : Name) :
    lexMeaning W (define n e st).lex x =
      if x = n then meaningOf (some e, none) else lexMeaning W st.lex x := by
  rw [define]
  split
  · rename_i s h
    rw [lexMeaning_eq, lexMeaning_eq, h]
    simp only [Scope.get]
    rw [lookup_insert]
    split
    · rename_i hx
      have : meaningOf (some e, none) ≠ none := by
        intro h'; rw [meaningOf_none] at h'; simp at h'
      cases hm : meaningOf (some e, none) with
      | none => exact absurd hm this
      | some m => rfl
    · rfl
  · rename_i v h
    rw [show (⟨st.lex.scopes ++ [Scope.builtin v], Scope.lexical (insert n e [])⟩ : Lex)
      = ⟨st.lex.scopes ++ [st.lex.last], Scope.lexical (insert n e [])⟩ by rw [h]]
    show lexMeaning W ⟨st.lex.scopes ++ [st.lex.last], Scope.lexical (insert n e [])⟩ x = _
    rw [lexMeaning_push]
    simp only [Scope.get]
    rw [lookup_insert]
    split
    · have : meaningOf (some e, none) ≠ none := by
        intro h'; rw [meaningOf_none] at h'; simp at h'
      cases hm : meaningOf (some e, none) with
      | none => exact absurd hm this
      | some m => rfl
    · rfl

theorem lexMeaning_pushScope (W : World) (s : Scope) (st : St) (x : Name) :
    lexMeaning W (pushScope W s st).lex x =
      (meaningOf (s.get W x)).or (lexMeaning W st.lex x) := by
  rw [pushScope]
  show lexMeaning W ⟨_, s⟩ x = _
  by_cases h : st.lex.last.isEmpty W = true
  · rw [if_pos h, lexMeaning_eq, lexMeaning_eq W st.lex, meaningOf_empty W _ x h]
    rfl
  · rw [if_neg h, lexMeaning_push]

/-! ## Scopes are only added -/

theorem withScope_lex (f : St → St) (st : St)
    (h : (st.lex.scopes ++ [st.lex.last]) <+:
      (f { st with lex := ⟨st.lex.scopes ++ [st.lex.last], .lexical []⟩ }).lex.scopes) :
    (withScope f st).lex = st.lex := by
  obtain ⟨t, ht⟩ := h
  rw [withScope]
  have : (f { st with lex := ⟨st.lex.scopes ++ [st.lex.last], .lexical []⟩ }).lex.scopes.take
      (st.lex.scopes.length + 1) = st.lex.scopes ++ [st.lex.last] := by
    rw [← ht, List.take_left' (by simp)]
  simp only [this]
  rw [List.dropLast_concat, List.getLast?_concat]
  rfl

theorem define_scopes (n : Name) (e : Expr) (st : St) :
    st.lex.scopes <+: (define n e st).lex.scopes := by
  rw [define]
  split
  · exact List.prefix_refl _
  · exact List.prefix_append _ _

theorem define_buf (n : Name) (e : Expr) (st : St) : (define n e st).buf = st.buf := by
  rw [define]
  split <;> rfl

theorem pushScope_scopes (W : World) (s : Scope) (st : St) :
    st.lex.scopes <+: (pushScope W s st).lex.scopes := by
  rw [pushScope]
  show st.lex.scopes <+: (if _ then _ else _)
  split
  · exact List.prefix_refl _
  · exact List.prefix_append _ _

theorem checkPat_scopes (p : Pat) (st : St) : st.lex.scopes <+: (checkPat p st).lex.scopes := by
  induction p generalizing st with
  | nil => exact List.prefix_refl _
  | cons x p ih =>
    obtain ⟨s, n⟩ := x
    rw [checkPat]
    exact (define_scopes n _ (resolveAs s _ st)).trans (ih _)

theorem importItem_scopes (W : World) (scope : Scope) (it : Item) (st : St) :
    st.lex.scopes <+: (importItem W scope it st).lex.scopes := by
  rw [importItem]
  split
  · exact List.prefix_refl _
  · simp only
    split
    · exact define_scopes _ _ (resolveAs _ _ st)
    · exact define_scopes _ _ (resolveAs _ _ (resolveAs _ _ st))

theorem importItems_scopes (W : World) (scope : Scope) (l : List Item) (st : St) :
    st.lex.scopes <+: (importItems W scope l st).lex.scopes := by
  induction l generalizing st with
  | nil => exact List.prefix_refl _
  | cons it l ih =>
    rw [importItems]
    exact (importItem_scopes W scope it st).trans (ih _)

theorem checkSource_lex (W : World) (src : Src) (st : St) :
    (checkSource W src st).2.lex = st.lex := by
  cases src <;> rfl

theorem checkImport_scopes (W : World) (ex : File → LexicalScope) (i : Import) (st : St) :
    st.lex.scopes <+: (checkImport W ex i st).lex.scopes := by
  have h1 : ∀ st' : St, st'.lex = st.lex → ∀ m,
      st.lex.scopes <+: (bindMod i.stmt ⟨none, m.map Mod.target, none⟩ st' (modVar W i m)).lex.scopes := by
    intro st' h m
    rw [← h]
    rw [bindMod.eq_def]
    split
    · exact define_scopes _ _ st'
    · exact List.prefix_refl _
  rw [checkImport]
  have h2 := h1 (checkSource W i.src st).2 (checkSource_lex W i.src st) (checkSource W i.src st).1
  simp only
  split
  · exact h2
  · exact h2.trans (pushScope_scopes _ _ _)
  · exact h2.trans (importItems_scopes _ _ _ _)

theorem withScope_scopes (f : St → St) (st : St)
    (h : ∀ st : St, st.lex.scopes <+: (f st).lex.scopes) : (withScope f st).lex = st.lex :=
  withScope_lex f st
    (h { st with lex := ⟨st.lex.scopes ++ [st.lex.last], .lexical []⟩ })

mutual
theorem check_scopes (W : World) (ex : File → LexicalScope) :
    ∀ (e : E) (st : St), st.lex.scopes <+: (check W ex e st).lex.scopes
  | .skip, _ => by rw [check]; exact List.prefix_refl _
  | .ident _ _ _, _ => by rw [check]; exact List.prefix_refl _
  | .seq a b, st => by
    rw [check]; exact (check_scopes W ex a st).trans (check_scopes W ex b _)
  | .block b, st => by
    rw [check, withScope_scopes _ st (check_scopes W ex b)]; exact List.prefix_refl _
  | .item b, st => by
    rw [check, withScope_scopes _ st (check_scopes W ex b)]; exact List.prefix_refl _
  | .letPat p init, st => by
    rw [check]; exact (check_scopes W ex init st).trans (checkPat_scopes p _)
  | .closure s name ps body, st => by
    rw [check]
    refine List.IsPrefix.trans ?_ (define_scopes _ _ _)
    rw [withScope_scopes _ _ (fun st => ((define_scopes _ _ st).trans
      (checkParams_scopes W ex ps _)).trans (check_scopes W ex body _))]
    exact List.prefix_refl _
  | .destruct p v, st => by
    rw [check]; exact (checkPat_scopes p st).trans (check_scopes W ex v _)
  | .forIn p iter body, st => by
    rw [check, withScope_scopes _ st (fun st => ((checkPat_scopes p st).trans
      (check_scopes W ex iter _)).trans (check_scopes W ex body _))]
    exact List.prefix_refl _
  | .ctx b, st => by rw [check]; exact check_scopes W ex b st
  | .imp i, st => by rw [check]; exact checkImport_scopes W ex i st

theorem checkParams_scopes (W : World) (ex : File → LexicalScope) :
    ∀ (ps : Ps) (st : St), st.lex.scopes <+: (checkParams W ex ps st).lex.scopes
  | .nil, _ => by rw [checkParams]; exact List.prefix_refl _
  | .pos p rest, st => by
    rw [checkParams]; exact (checkPat_scopes p st).trans (checkParams_scopes W ex rest _)
  | .named s n d rest, st => by
    rw [checkParams]
    exact ((check_scopes W ex d st).trans
      (define_scopes n _ (resolveAs s _ (check W ex d st)))).trans (checkParams_scopes W ex rest _)
  | .sink s n rest, st => by
    rw [checkParams]
    exact (define_scopes n _ (resolveAs s _ (resolveIdent W s n false st))).trans
      (checkParams_scopes W ex rest _)
  | .noSink s rest, st => by
    rw [checkParams]
    exact (define_scopes 0 _ (resolveAs s _ st)).trans (checkParams_scopes W ex rest _)
end

/-! ## The rules depend only on the names mentioned -/

theorem bindPat_congr (p : Pat) (a b : Env) (n : Name) (h : a n = b n) :
    a.bindPat p n = b.bindPat p n := by
  induction p generalizing a b with
  | nil => exact h
  | cons x p ih =>
    obtain ⟨s, m⟩ := x
    rw [Env.bindPat, Env.bindPat]
    apply ih
    simp only [Env.bind]
    split
    · rfl
    · exact h

theorem bindPat_notin (p : Pat) (a : Env) (n : Name) (h : n ∉ p.map (·.2)) :
    a.bindPat p n = a n := by
  induction p generalizing a with
  | nil => rfl
  | cons x p ih =>
    obtain ⟨s, m⟩ := x
    rw [List.map_cons, List.mem_cons, not_or] at h
    rw [Env.bindPat, ih _ h.2, Env.bind, if_neg h.1]

theorem bind_congr (a b : Env) (n x : Name) (m : Meaning) (h : a x = b x) :
    a.bind n m x = b.bind n m x := by
  simp only [Env.bind]
  split
  · rfl
  · exact h

theorem look_congr (W : World) (a b : Env) (n : Name) (math : Bool) (h : a n = b n) :
    a.look W n math = b.look W n math := by
  rw [Env.look, Env.look, h]

theorem bindName_congr (a b : Env) (m : Meaning) (o : Option Name) (x : Name)
    (h : a x = b x) : bindName a m o x = bindName b m o x := by
  cases o with
  | none => exact h
  | some n => exact bind_congr a b n x m h

theorem usesItems_congr (W : World) (ex : File → Env) (scope : Env) (l : List Item)
    (a b : Env) :
    (usesItems W ex scope l a).1 = (usesItems W ex scope l b).1 ∧
      ∀ n, a n = b n → (usesItems W ex scope l a).2 n = (usesItems W ex scope l b).2 n := by
  induction l generalizing a b with
  | nil => exact ⟨rfl, fun _ h => h⟩
  | cons it l ih =>
    rw [usesItems, usesItems]
    refine ⟨?_, ?_⟩
    · simp only; rw [(ih _ _).1]
    · intro n h
      simp only
      apply (ih _ _).2
      rw [bindItem, bindItem]
      cases it.rename with
      | some a => exact bind_congr _ _ _ _ _ h
      | none => cases it.last with
        | some a => exact bind_congr _ _ _ _ _ h
        | none => exact h

theorem usesImport_congr (W : World) (ex : File → Env) (i : Import) (a b : Env)
    (h : srcMeaning W a i.src = srcMeaning W b i.src) :
    (usesImport W ex i a).1 = (usesImport W ex i b).1 ∧
      ∀ n, a n = b n → (usesImport W ex i a).2 n = (usesImport W ex i b).2 n := by
  have h1 : ∀ m o n, a n = b n → bindName a m o n = bindName b m o n :=
    fun m o n hn => bindName_congr a b m o n hn
  rw [usesImport, usesImport, h]
  simp only
  cases i.what with
  | bare => exact ⟨rfl, h1 _ _⟩
  | star =>
    refine ⟨rfl, fun n hn => ?_⟩
    simp only
    split
    · rfl
    · exact h1 _ _ n hn
  | items l =>
    simp only
    refine ⟨?_, fun n hn => ?_⟩
    · rw [(usesItems_congr W ex _ l _ _).1]
    · exact (usesItems_congr W ex _ l _ _).2 n (h1 _ _ n hn)

mutual
theorem uses_congr (W : World) (ex : File → Env) :
    ∀ (e : E) (a b : Env), (∀ n ∈ mentions e, a n = b n) →
      (uses W ex e a).1 = (uses W ex e b).1 ∧
        ∀ n, a n = b n → (uses W ex e a).2 n = (uses W ex e b).2 n
  | .skip, _, _, _ => by simp only [uses]; exact ⟨trivial, fun _ h => h⟩
  | .ident s n m, a, b, h => by
    simp only [uses]
    exact ⟨by rw [look_congr W a b n m (h n (by simp [mentions]))], fun _ h => h⟩
  | .seq x y, a, b, h => by
    simp only [mentions, List.mem_append] at h
    simp only [uses]
    have hx := uses_congr W ex x a b (fun n hn => h n (.inl hn))
    have hy := uses_congr W ex y (uses W ex x a).2 (uses W ex x b).2
      (fun n hn => hx.2 n (h n (.inr hn)))
    exact ⟨by rw [hx.1, hy.1], fun n hn => hy.2 n (hx.2 n hn)⟩
  | .block x, a, b, h => by
    simp only [uses]
    exact ⟨(uses_congr W ex x a b h).1, fun _ h => h⟩
  | .item x, a, b, h => by
    simp only [uses]
    exact uses_congr W ex x a b h
  | .letPat p init, a, b, h => by
    simp only [uses]
    have hx := uses_congr W ex init a b h
    exact ⟨by rw [hx.1], fun n hn => bindPat_congr p _ _ n (hx.2 n hn)⟩
  | .closure s name ps body, a, b, h => by
    simp only [mentions, List.mem_append] at h
    simp only [uses]
    have hin := bindName_congr a b (.decl (functionDef s name)) name
    have hp := usesParams_congr W ex ps a b _ _ (fun n hn => h n (.inl hn)) hin
    have hb := uses_congr W ex body _ _ (fun n hn => hp.2 n (h n (.inr hn)))
    exact ⟨by rw [hp.1, hb.1], hin⟩
  | .destruct p v, a, b, h => by
    simp only [mentions, List.mem_append] at h
    simp only [uses]
    have hv := uses_congr W ex v a b (fun n hn => h n (.inr hn))
    refine ⟨?_, hv.2⟩
    rw [hv.1]
    congr 1
    apply List.map_congr_left
    intro x hx
    rw [look_congr W _ _ x.2 false
      (hv.2 x.2 (h x.2 (.inl (List.mem_map.mpr ⟨x, hx, rfl⟩))))]
  | .forIn p iter body, a, b, h => by
    simp only [mentions, List.mem_append] at h
    simp only [uses]
    have hi := uses_congr W ex iter a b (fun n hn => h n (.inl hn))
    have hb := uses_congr W ex body ((uses W ex iter a).2.bindPat p)
      ((uses W ex iter b).2.bindPat p)
      (fun n hn => bindPat_congr p _ _ n (hi.2 n (h n (.inr hn))))
    exact ⟨by rw [hi.1, hb.1], hi.2⟩
  | .ctx x, a, b, h => by
    simp only [uses]
    exact ⟨(uses_congr W ex x a b h).1, fun _ h => h⟩
  | .imp i, a, b, h => by
    simp only [uses]
    apply usesImport_congr
    simp only [mentions] at h
    cases hs : i.src with
    | path s f => rfl
    | ident s n =>
      rw [hs] at h
      exact look_congr W a b n false (h n (by simp))

theorem usesParams_congr (W : World) (ex : File → Env) :
    ∀ (ps : Ps) (o o' a b : Env), (∀ n ∈ mentionsParams ps, o n = o' n) →
      (∀ n, o n = o' n → a n = b n) →
      (usesParams W ex o ps a).1 = (usesParams W ex o' ps b).1 ∧
        ∀ n, o n = o' n → (usesParams W ex o ps a).2 n = (usesParams W ex o' ps b).2 n
  | .nil, _, _, _, _, _, h2 => by simp only [usesParams]; exact ⟨trivial, h2⟩
  | .pos p rest, o, o', a, b, h, h2 => by
    simp only [usesParams]
    have hr := usesParams_congr W ex rest o o' (a.bindPat p) (b.bindPat p) h
      (fun n hn => bindPat_congr p a b n (h2 n hn))
    exact ⟨by rw [hr.1], hr.2⟩
  | .named s m d rest, o, o', a, b, h, h2 => by
    simp only [mentionsParams, List.mem_append] at h
    simp only [usesParams]
    have hd := uses_congr W ex d o o' (fun n hn => h n (.inl hn))
    have hr := usesParams_congr W ex rest o o' (a.bind m _) (b.bind m (.decl (.var s m)))
      (fun n hn => h n (.inr hn)) (fun n hn => bind_congr a b m n _ (h2 n hn))
    exact ⟨by rw [hd.1, hr.1], hr.2⟩
  | .sink s m rest, o, o', a, b, h, h2 => by
    simp only [usesParams]
    have hr := usesParams_congr W ex rest o o' (a.bind m _) (b.bind m (.decl (.var s m))) h
      (fun n hn => bind_congr a b m n _ (h2 n hn))
    exact ⟨by rw [hr.1], hr.2⟩
  | .noSink s rest, o, o', a, b, h, h2 => by
    simp only [usesParams]
    have hr := usesParams_congr W ex rest o o' a b h h2
    exact ⟨by rw [hr.1], hr.2⟩
end

/-- What declares nothing leaves the environment as it is. -/
theorem declares_env (W : World) (ex : File → Env) :
    ∀ (e : E) (env : Env), declares e = false → (uses W ex e env).2 = env
  | .skip, _, _ => by simp only [uses]
  | .ident _ _ _, _, _ => by simp only [uses]
  | .seq a b, env, h => by
    simp only [declares, Bool.or_eq_false_iff] at h
    simp only [uses]
    rw [declares_env W ex a env h.1, declares_env W ex b env h.2]
  | .block _, _, _ => by simp only [uses]
  | .item b, env, h => by
    simp only [uses]; exact declares_env W ex b env h
  | .letPat p init, env, h => by
    simp only [declares, Bool.or_eq_false_iff, Bool.not_eq_false', List.isEmpty_iff] at h
    simp only [uses]
    rw [declares_env W ex init env h.2, h.1]; rfl
  | .closure s name ps body, env, h => by
    simp only [declares] at h
    cases name with
    | none => simp only [uses]; rfl
    | some n => cases h
  | .destruct p v, env, h => by
    simp only [uses]; exact declares_env W ex v env h
  | .forIn p iter body, env, h => by
    simp only [uses]; exact declares_env W ex iter env h
  | .ctx _, _, _ => by simp only [uses]
  | .imp _, _, h => by cases h

/-! ## The code follows the rules -/

/-- The scopes mean the same as the environment. -/
def Sim (W : World) (lex : Lex) (env : Env) : Prop :=
  ∀ n, n ≠ 0 → lexMeaning W lex n = env n

def ansOf (m : Option Meaning) : Option Ans := m.bind Meaning.answer

/-- The entries added to the table answer as the list of places. -/
def Agree (b0 b1 : List (Span × RefExpr)) (l : List (Span × Option Meaning)) : Prop :=
  ∃ out, b1 = b0 ++ out ∧
    ∀ s, (lookupLast s out).map ofRef = (lookupLast s l).map ansOf

theorem Agree.refl (b : List (Span × RefExpr)) : Agree b b [] :=
  ⟨[], by simp, fun _ => rfl⟩

theorem Agree.trans {a b c : List (Span × RefExpr)} {l l' : List (Span × Option Meaning)}
    (h : Agree a b l) (h' : Agree b c l') : Agree a c (l ++ l') := by
  obtain ⟨o, rfl, h⟩ := h
  obtain ⟨o', rfl, h'⟩ := h'
  refine ⟨o ++ o', by rw [List.append_assoc], fun s => ?_⟩
  rw [lookupLast_append, lookupLast_append]
  have h1 := h s
  have h2 := h' s
  cases ha : lookupLast s o' <;> cases hb : lookupLast s l' <;>
    rw [ha, hb] at h2 <;> first | exact h1 | exact h2 | (cases h2)

theorem Agree.one (st : St) (s : Span) (r : RefExpr) (m : Option Meaning)
    (h : ofRef r = ansOf m) : Agree st.buf (resolveAs s r st).buf [(s, m)] := by
  refine ⟨[(s, r)], rfl, fun x => ?_⟩
  simp only [lookupLast]
  by_cases hs : s = x
  · rw [if_pos hs, if_pos hs]; simp [h]
  · rw [if_neg hs, if_neg hs]; rfl

theorem Agree.define {b : List (Span × RefExpr)} {st : St} {l : List (Span × Option Meaning)}
    (h : Agree b st.buf l) (n : Name) (e : Expr) : Agree b (define n e st).buf l := by
  rw [define_buf]; exact h

/-- An entry overwritten at once does not matter. -/
theorem Agree.overwrite (st : St) (s : Span) (r' r : RefExpr) (m : Option Meaning)
    (h : ofRef r = ansOf m) :
    Agree st.buf (resolveAs s r (resolveAs s r' st)).buf [(s, m)] := by
  refine ⟨[(s, r'), (s, r)], by simp [resolveAs], fun x => ?_⟩
  by_cases hs : s = x
  · simp [lookupLast, h, hs]
  · simp [lookupLast, hs]

theorem getFirst_term (W : World) (n : Name) (l : List Scope) :
    (getFirst W n l).1.isSome = true → (getFirst W n l).2 = none := by
  induction l with
  | nil => intro h; cases h
  | cons s l ih =>
    rw [getFirst]
    split
    · intro h
      cases s with
      | lexical s => rfl
      | builtin v => cases h
    · exact ih

/-- An identifier is resolved to what its name means. -/
theorem ident_answer (W : World) (lex : Lex) (env : Env) (h : Sim W lex env) (n : Name)
    (hn : n ≠ 0) (math : Bool) :
    ofRef ⟨none, extractRoot (evalIdent W lex n math).1, (evalIdent W lex n math).2⟩ =
      ansOf (env.look W n math) := by
  have hm := h n hn
  rw [Env.look, ← hm, lexMeaning, evalIdent]
  have ht := getFirst_term W n (lex.last :: lex.scopes.reverse)
  generalize getFirst W n (lex.last :: lex.scopes.reverse) = r at ht
  obtain ⟨a, b⟩ := r
  cases a with
  | none =>
    cases b with
    | none =>
      simp only [meaningOf, Option.isSome_none, Bool.or_self, Bool.false_eq_true, if_false]
      cases W.lib math n <;> rfl
    | some v => rfl
  | some e =>
    simp only at ht
    cases ht rfl
    cases e with
    | decl d => rfl
    | other => rfl
    | ref r =>
      obtain ⟨x, y, z⟩ := r
      cases y with
      | none => rfl
      | some t => cases t <;> rfl

theorem Sim.define {W : World} {st : St} {env : Env} (h : Sim W st.lex env) (n : Name)
    (e : Expr) (m : Meaning) (he : meaningOf (some e, none) = some m) :
    Sim W (define n e st).lex (env.bind n m) := by
  intro x hx
  rw [lexMeaning_define, Env.bind, he, h x hx]

theorem Sim.define_zero {W : World} {st : St} {env : Env} (h : Sim W st.lex env) (e : Expr) :
    Sim W (Scoping.define 0 e st).lex env := by
  intro x hx
  rw [lexMeaning_define, if_neg hx, h x hx]

theorem checkPat_sim (W : World) (p : Pat) (st : St) (env : Env) (h : Sim W st.lex env) :
    Sim W (checkPat p st).lex (env.bindPat p) ∧
      Agree st.buf (checkPat p st).buf
        (p.map (fun x => (x.1, some (.decl (.var x.1 x.2))))) := by
  induction p generalizing st env with
  | nil => exact ⟨h, Agree.refl _⟩
  | cons x p ih =>
    obtain ⟨s, n⟩ := x
    rw [checkPat, Env.bindPat]
    have h1 : Sim W (resolveAs s (asDef (.var s n)) st).lex env := h
    have h2 := ih _ _ (h1.define n (.decl (.var s n)) (.decl (.var s n)) rfl)
    refine ⟨h2.1, ?_⟩
    have h3 : Agree st.buf (resolveAs s (asDef (.var s n)) st).buf
      [(s, some (.decl (.var s n)))] := Agree.one st s _ _ rfl
    rw [define_buf] at h2
    exact h3.trans h2.2

/-- The scopes imported from mean what the files export. -/
def SimExports (ex : File → LexicalScope) (exEnv : File → Env) : Prop :=
  ∀ f n, n ≠ 0 → meaningOf ((ex f).lookup n, none) = exEnv f n

/-- An item of an import from a file. -/
theorem item_sim (W : World) (ex : File → LexicalScope) (exEnv : File → Env)
    (hex : SimExports ex exEnv) (f : File) (it : Item) (x : Span × Name)
    (hp : it.path = [x]) (hx : x.2 ≠ 0) (hr : ∀ a, it.rename = some a → a.2 ≠ 0)
    (st : St) (env : Env) (h : Sim W st.lex env) :
    let m := itemMeaning W exEnv (exEnv f) it
    Sim W (importItem W (.lexical (ex f)) it st).lex
      (bindItem env it m) ∧
    Agree st.buf (importItem W (.lexical (ex f)) it st).buf
      ((it.last.toList.map (fun x => (x.1, some m))) ++
        (it.rename.toList.map (fun x => (x.1, some m)))) := by
  obtain ⟨path, rename⟩ := it
  obtain ⟨s, n⟩ := x
  cases hp
  simp only at hx hr
  have hm := hex f n hx
  simp only [itemMeaning, List.map_cons, List.map_nil, memberAt]
  rw [← hm]
  simp only [importItem, List.getLast?_singleton, Scope.get, Item.last, Option.toList_some,
    List.map_cons, List.map_nil]
  -- the reference recorded has the meaning of the member
  have key : ∀ e : Option Expr,
      meaningOf (some (.ref ⟨none, if e.isNone && (none : Option Val).isNone then some Target.other
        else extractRoot e, none⟩), none) = some ((meaningOf (e, none)).getD .unknown) ∧
      ofRef ⟨none, if e.isNone && (none : Option Val).isNone then some Target.other
        else extractRoot e, none⟩ = ansOf (some ((meaningOf (e, none)).getD .unknown)) := by
    intro e
    cases e with
    | none => exact ⟨rfl, rfl⟩
    | some e =>
      cases e with
      | decl d => exact ⟨rfl, rfl⟩
      | other => exact ⟨rfl, rfl⟩
      | ref r =>
        obtain ⟨x, y, z⟩ := r
        cases y with
        | none => exact ⟨rfl, rfl⟩
        | some t => cases t <;> exact ⟨rfl, rfl⟩
  obtain ⟨k1, k2⟩ := key ((ex f).lookup n)
  cases rename with
  | none =>
    simp only [Option.toList_none, List.map_nil, List.append_nil]
    refine ⟨Sim.define (st := resolveAs s _ st) h n _ _ k1, ?_⟩
    exact (Agree.one st s _ _ k2).define n _
  | some a =>
    obtain ⟨s', n'⟩ := a
    simp only [Option.toList_some, List.map_cons, List.map_nil]
    refine ⟨Sim.define (st := resolveAs s' _ (resolveAs s _ st)) h n' _ _ k1, ?_⟩
    exact ((Agree.one st s _ _ k2).trans (Agree.one (resolveAs s _ st) s' _ _ k2)).define n' _

theorem items_sim (W : World) (ex : File → LexicalScope) (exEnv : File → Env)
    (hex : SimExports ex exEnv) (f : File) (l : List Item)
    (hl : ∀ it ∈ l, (∃ x, it.path = [x] ∧ x.2 ≠ 0) ∧ ∀ a, it.rename = some a → a.2 ≠ 0)
    (st : St) (env : Env) (h : Sim W st.lex env) :
    Sim W (importItems W (.lexical (ex f)) l st).lex (usesItems W exEnv (exEnv f) l env).2 ∧
    Agree st.buf (importItems W (.lexical (ex f)) l st).buf
      (usesItems W exEnv (exEnv f) l env).1 := by
  induction l generalizing st env with
  | nil => exact ⟨h, Agree.refl _⟩
  | cons it l ih =>
    obtain ⟨⟨x, hp, hx⟩, hr⟩ := hl it (by simp)
    have h1 := item_sim W ex exEnv hex f it x hp hx hr st env h
    have h2 := ih (fun it' h' => hl it' (by simp [h'])) _ _ h1.1
    rw [importItems, usesItems]
    exact ⟨h2.1, h1.2.trans h2.2⟩

theorem import_sim (W : World) (ex : File → LexicalScope) (exEnv : File → Env)
    (hex : SimExports ex exEnv) (i : Import) (hp : Plain (.imp i)) (st : St) (env : Env)
    (h : Sim W st.lex env) :
    Sim W (checkImport W ex i st).lex (usesImport W exEnv i env).2 ∧
      Agree st.buf (checkImport W ex i st).buf (usesImport W exEnv i env).1 := by
  obtain ⟨stmt, src, alias, what⟩ := i
  simp only [Plain] at hp
  obtain ⟨⟨s, f, rfl⟩, ha, hw⟩ := hp
  have h0 : Agree st.buf (resolveAs s ⟨none, some (.decl (.module f)), none⟩ st).buf
      [(s, some (.decl (.module f)))] := Agree.one st s _ _ rfl
  have hs0 : Sim W (resolveAs s ⟨none, some (.decl (.module f)), none⟩ st).lex env := h
  -- the module variable
  have key : ∀ (st1 : St), Sim W st1.lex env →
      Sim W (bindMod stmt ⟨none, some (.decl (.module f)), none⟩ st1
        (modVar W ⟨stmt, .path s f, alias, what⟩ (some (.file f)))).lex
        (bindName env (.decl (.module f)) ((modName W ⟨stmt, .path s f, alias, what⟩
          (some (.decl (.module f)))).map (·.2))) ∧
      Agree st1.buf (bindMod stmt ⟨none, some (.decl (.module f)), none⟩ st1
        (modVar W ⟨stmt, .path s f, alias, what⟩ (some (.file f)))).buf
        [(((modName W ⟨stmt, .path s f, alias, what⟩ (some (.decl (.module f)))).map
          (·.1)).getD stmt, some (.decl (.module f)))] := by
    intro st1 h1
    have hd : ∀ (s' : Span) (n : Name),
        Sim W (resolveAs s' ⟨none, some (.decl (.module f)), none⟩
            (define n (.ref ⟨none, some (.decl (.module f)), none⟩) st1)).lex
          (env.bind n (.decl (.module f))) ∧
        Agree st1.buf (resolveAs s' ⟨none, some (.decl (.module f)), none⟩
            (define n (.ref ⟨none, some (.decl (.module f)), none⟩) st1)).buf
          [(s', some (.decl (.module f)))] := by
      intro s' n
      refine ⟨h1.define n _ _ rfl, ?_⟩
      have := Agree.one (define n (.ref ⟨none, some (.decl (.module f)), none⟩) st1) s'
        ⟨none, some (.decl (.module f)), none⟩ (some (.decl (.module f))) rfl
      rw [define_buf] at this
      exact this
    have hn : Sim W (resolveAs stmt ⟨none, some (.decl (.module f)), none⟩ st1).lex env ∧
        Agree st1.buf (resolveAs stmt ⟨none, some (.decl (.module f)), none⟩ st1).buf
          [(stmt, some (.decl (.module f)))] := ⟨h1, Agree.one st1 stmt _ _ rfl⟩
    cases alias with
    | some a => exact hd a.1 a.2
    | none =>
      cases what with
      | bare => exact hd s (W.stem f)
      | star => exact hn
      | items l => exact hn
  obtain ⟨k1, k2⟩ := key _ hs0
  have k3 := h0.trans k2
  simp only [checkImport, checkSource, usesImport, srcMeaning, Src.span, Option.map_some,
    Mod.target, Option.getD_some]
  cases what with
  | bare => exact ⟨k1, k3⟩
  | star =>
    refine ⟨?_, k3⟩
    intro n hn
    simp only [modScope]
    rw [lexMeaning_pushScope, k1 n hn]
    simp only [Scope.get, members]
    rw [hex f n hn]
    cases exEnv f n <;> rfl
  | items l =>
    have := items_sim W ex exEnv hex f l (hw l rfl) _ _ k1
    exact ⟨this.1, k3.trans this.2⟩

theorem withScope_buf (f : St → St) (st : St) :
    (withScope f st).buf =
      (f { st with lex := ⟨st.lex.scopes ++ [st.lex.last], .lexical []⟩ }).buf := rfl

theorem Sim.fresh {W : World} {st : St} {env : Env} (h : Sim W st.lex env) :
    Sim W ({ st with lex := ⟨st.lex.scopes ++ [st.lex.last], .lexical []⟩ } : St).lex env := by
  intro n hn
  show lexMeaning W ⟨st.lex.scopes ++ [st.lex.last], .lexical []⟩ n = _
  rw [lexMeaning_fresh]; exact h n hn

mutual
theorem check_sim (W : World) (ex : File → LexicalScope) (exEnv : File → Env)
    (hex : SimExports ex exEnv) :
    ∀ (e : E) (st : St) (env : Env), Plain e → Sim W st.lex env →
      Sim W (check W ex e st).lex (uses W exEnv e env).2 ∧
        Agree st.buf (check W ex e st).buf (uses W exEnv e env).1
  | .skip, st, env, _, h => by
    simp only [check, uses]; exact ⟨h, Agree.refl _⟩
  | .ident s n math, st, env, hp, h => by
    simp only [check, uses, resolveIdent]
    exact ⟨h, Agree.one st s _ _ (ident_answer W st.lex env h n hp math)⟩
  | .seq a b, st, env, hp, h => by
    simp only [Plain] at hp
    simp only [check, uses]
    have ha := check_sim W ex exEnv hex a st env hp.1 h
    have hb := check_sim W ex exEnv hex b _ _ hp.2 ha.1
    exact ⟨hb.1, ha.2.trans hb.2⟩
  | .block b, st, env, hp, h => by
    simp only [Plain] at hp
    simp only [check, uses]
    have hb := check_sim W ex exEnv hex b _ env hp h.fresh
    rw [withScope_scopes _ st (check_scopes W ex b)]
    exact ⟨h, hb.2⟩
  | .item b, st, env, hp, h => by
    simp only [Plain] at hp
    simp only [check, uses]
    have hb := check_sim W ex exEnv hex b _ env hp.1 h.fresh
    rw [withScope_scopes _ st (check_scopes W ex b), declares_env W exEnv b env hp.2]
    exact ⟨h, hb.2⟩
  | .letPat p init, st, env, hp, h => by
    simp only [Plain] at hp
    simp only [check, uses]
    have hi := check_sim W ex exEnv hex init st env hp.1 h
    have hq := checkPat_sim W p _ _ hi.1
    exact ⟨hq.1, hi.2.trans hq.2⟩
  | .closure s name ps body, st, env, hp, h => by
    simp only [Plain] at hp
    obtain ⟨hname, hps, hbody⟩ := hp
    simp only [check, uses]
    have h0 : Sim W (resolveAs s (asDef (funDecl s name)) st).lex env := h
    have hA0 : Agree st.buf (resolveAs s (asDef (funDecl s name)) st).buf
        [(s, some (.decl (funDecl s name)))] := Agree.one st s _ _ rfl
    have hfd : functionDef s name = funDecl s name := by cases name <;> rfl
    rw [hfd]
    have hdef : ∀ st' : St, Sim W st'.lex env →
        Sim W (define (funName name) (.decl (funDecl s name)) st').lex
          (bindName env (.decl (funDecl s name)) name) := by
      intro st' h'
      cases name with
      | none => exact h'.define_zero _
      | some n => exact h'.define n _ _ rfl
    have hin : ∀ n, n ∉ name.toList →
        bindName env (.decl (funDecl s name)) name n = env n := by
      intro n hn
      cases name with
      | none => rfl
      | some m =>
        simp only [Option.toList_some, List.mem_singleton] at hn
        exact if_neg hn
    have hd1 := hdef _ h0.fresh
    have hq := params_sim W ex exEnv hex ps name.toList _ env _ hps hd1 hin
    have hb := check_sim W ex exEnv hex body _ _ hbody hq.1
    refine ⟨?_, ?_⟩
    · apply hdef
      rw [withScope_scopes _ _ (fun st => ((define_scopes _ _ st).trans
        (checkParams_scopes W ex ps _)).trans (check_scopes W ex body _))]
      exact h0
    · rw [define_buf, withScope_buf]
      have h2 := hq.2
      rw [define_buf] at h2
      exact hA0.trans (h2.trans hb.2)
  | .destruct p v, st, env, hp, h => by
    simp only [Plain] at hp
    obtain ⟨rfl, hv⟩ := hp
    simp only [check, checkPat, uses, List.map_nil, List.append_nil]
    exact check_sim W ex exEnv hex v st env hv h
  | .forIn p iter body, st, env, hp, h => by
    simp only [Plain] at hp
    obtain ⟨hi, hb, hd, _, hm⟩ := hp
    simp only [check, uses]
    have h1 := checkPat_sim W p _ env h.fresh
    have h2 := check_sim W ex exEnv hex iter _ _ hi h1.1
    have hc := uses_congr W exEnv iter (env.bindPat p) env
      (fun n hn => bindPat_notin p env n (hm n hn))
    rw [declares_env W exEnv iter _ hd, hc.1] at h2
    have h3 := check_sim W ex exEnv hex body _ _ hb h2.1
    rw [withScope_scopes _ st (fun st => ((checkPat_scopes p st).trans
      (check_scopes W ex iter _)).trans (check_scopes W ex body _)),
      declares_env W exEnv iter env hd]
    exact ⟨h, h1.2.trans (h2.2.trans h3.2)⟩
  | .ctx b, st, env, hp, h => by
    simp only [Plain] at hp
    simp only [check, uses]
    have hb := check_sim W ex exEnv hex b st env hp.1 h
    rw [declares_env W exEnv b env hp.2] at hb
    exact hb
  | .imp i, st, env, hp, h => by
    simp only [check, uses]
    exact import_sim W ex exEnv hex i hp st env h

theorem params_sim (W : World) (ex : File → LexicalScope) (exEnv : File → Env)
    (hex : SimExports ex exEnv) :
    ∀ (ps : Ps) (seen : List Name) (st : St) (outer inner : Env), PlainParams seen ps →
      Sim W st.lex inner → (∀ n, n ∉ seen → inner n = outer n) →
      Sim W (checkParams W ex ps st).lex (usesParams W exEnv outer ps inner).2 ∧
        Agree st.buf (checkParams W ex ps st).buf (usesParams W exEnv outer ps inner).1
  | .nil, _, st, _, _, _, h, _ => by
    simp only [checkParams, usesParams]; exact ⟨h, Agree.refl _⟩
  | .pos p rest, seen, st, outer, inner, hp, h, hi => by
    simp only [PlainParams] at hp
    simp only [checkParams, usesParams]
    have h1 := checkPat_sim W p st inner h
    have h2 := params_sim W ex exEnv hex rest _ _ outer _ hp.2 h1.1 (by
      intro n hn
      rw [List.mem_append, not_or] at hn
      rw [bindPat_notin p inner n hn.2, hi n hn.1])
    exact ⟨h2.1, h1.2.trans h2.2⟩
  | .named s n d rest, seen, st, outer, inner, hp, h, hi => by
    simp only [PlainParams] at hp
    obtain ⟨hn, hpd, hdd, hmd, hpr⟩ := hp
    simp only [checkParams, usesParams]
    have h1 := check_sim W ex exEnv hex d st inner hpd h
    have hc := uses_congr W exEnv d inner outer (fun m hm => hi m (hmd m hm))
    rw [declares_env W exEnv d inner hdd, hc.1] at h1
    have h1' : Sim W (resolveAs s (asDef (.var s n)) (check W ex d st)).lex inner := h1.1
    have hA : Agree (check W ex d st).buf
      (resolveAs s (asDef (.var s n)) (check W ex d st)).buf
      [(s, some (.decl (.var s n)))] := Agree.one _ s _ _ rfl
    have h2 := params_sim W ex exEnv hex rest _ _ outer _ hpr
      (h1'.define n (.decl (.var s n)) (.decl (.var s n)) rfl) (by
        intro m hm
        rw [List.mem_append, List.mem_singleton, not_or] at hm
        rw [Env.bind, if_neg hm.2, hi m hm.1])
    rw [define_buf] at h2
    exact ⟨h2.1, h1.2.trans (hA.trans h2.2)⟩
  | .sink s n rest, seen, st, outer, inner, hp, h, hi => by
    simp only [PlainParams] at hp
    simp only [checkParams, usesParams]
    have h1' : Sim W (resolveAs s (asDef (.var s n)) (resolveIdent W s n false st)).lex inner := h
    have hA : Agree st.buf
      (resolveAs s (asDef (.var s n)) (resolveIdent W s n false st)).buf
      [(s, some (.decl (.var s n)))] := Agree.overwrite st s _ _ _ rfl
    have h2 := params_sim W ex exEnv hex rest _ _ outer _ hp.2
      (h1'.define n (.decl (.var s n)) (.decl (.var s n)) rfl) (by
        intro m hm
        rw [List.mem_append, List.mem_singleton, not_or] at hm
        rw [Env.bind, if_neg hm.2, hi m hm.1])
    rw [define_buf] at h2
    exact ⟨h2.1, hA.trans h2.2⟩
  | .noSink s rest, seen, st, outer, inner, hp, h, hi => by
    simp only [PlainParams] at hp
    simp only [checkParams, usesParams]
    have h1' : Sim W (resolveAs s (asDef (.spread s)) st).lex inner := h
    have hA : Agree st.buf (resolveAs s (asDef (.spread s)) st).buf
      [(s, some (.decl (.spread s)))] := Agree.one _ s _ _ rfl
    have h2 := params_sim W ex exEnv hex rest _ _ outer _ hp
      (h1'.define_zero (.decl (.spread s))) hi
    rw [define_buf] at h2
    exact ⟨h2.1, hA.trans h2.2⟩
end

end Tinymist.Scoping
