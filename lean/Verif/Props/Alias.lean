import Verif.Spec.Alias

/-!
# The signature of a function known by its type
-/

namespace Tinymist.Alias

/-! ## Going through aliases -/

mutual

theorem walk_done : ∀ (t : Ty) (s : St), s.res.isSome = true → walk t s = s
  | .union l, s, h => by rw [walk, walks_done l s h]
  | .bounds ubs lbs, s, h => by rw [walk, walks_done ubs s h, walks_done lbs s h]
  | .var d ubs lbs, s, h => by unfold walk; rw [if_pos h]
  | .bind t n, s, h => by rw [walk, if_pos h]
  | .known f, s, h => by unfold walk; rw [if_pos h]
  | .func _, s, h => by rw [walk]
  | .other, s, h => by rw [walk]

theorem walks_done : ∀ (l : List Ty) (s : St), s.res.isSome = true → walks l s = s
  | [], s, h => by rw [walks]
  | t :: l, s, h => by rw [walks, walk_done t s h, walks_done l s h]

end

/-- What the search for arguments given in advance leads to. -/
def Found (l : List (Nat × Target)) (rest : List (Option Nat)) (s : St) : Prop :=
  match l.head? with
  | some (n, g) => s = ⟨some n :: rest, some g, true⟩
  | none => ∃ x, s = ⟨x :: rest, none, true⟩

theorem found_append {a b : List (Nat × Target)} {rest : List (Option Nat)} {f : St → St} {s : St} (h1 : Found a rest s)
    (hd : ∀ s : St, s.res.isSome = true → f s = s) (h2 : ∀ x, Found b rest (f ⟨x :: rest, none, true⟩)) : Found (a ++ b) rest (f s) := by
  cases a with
  | nil =>
    obtain ⟨x, rfl⟩ := h1
    exact h2 x
  | cons x a =>
    have : s = ⟨some x.1 :: rest, some x.2, true⟩ := h1
    subst this
    rw [hd _ rfl]
    rfl

mutual

theorem walk_given : ∀ (t : Ty) (x : Option Nat) (rest : List (Option Nat)), Found (given t) rest (walk t ⟨x :: rest, none, true⟩)
  | .union l, x, rest => by rw [walk, given]; exact walks_given l x rest
  | .bounds ubs lbs, x, rest => by
    rw [walk, given]
    exact found_append (walks_given ubs x rest) (walks_done lbs) fun y => walks_given lbs y rest
  | .var d ubs lbs, x, rest => by
    unfold walk
    rw [given, if_neg (by simp), if_pos rfl]
    exact found_append (walks_given ubs x rest) (walks_done lbs) fun y => walks_given lbs y rest
  | .bind t n, x, rest => by
    rw [walk, given, if_neg (by simp), if_pos rfl, setTop, walk_called t (some n :: rest)]
    cases called t with
    | nil => exact ⟨some n, rfl⟩
    | cons g l => rfl
  | .known f, x, rest => by unfold walk; rw [given, if_neg (by simp), if_pos rfl]; exact ⟨x, rfl⟩
  | .func _, x, rest => by rw [walk, given]; exact ⟨x, rfl⟩
  | .other, x, rest => by rw [walk, given]; exact ⟨x, rfl⟩

theorem walks_given : ∀ (l : List Ty) (x : Option Nat) (rest : List (Option Nat)), Found (givens l) rest (walks l ⟨x :: rest, none, true⟩)
  | [], x, rest => by rw [walks, givens]; exact ⟨x, rfl⟩
  | t :: l, x, rest => by
    rw [walks, givens]
    exact found_append (walk_given t x rest) (walks_done l) fun y => walks_given l y rest

theorem walk_called : ∀ (t : Ty) (stack : List (Option Nat)), walk t ⟨stack, none, false⟩ = ⟨stack, (called t).head?, false⟩
  | .union l, stack => by rw [walk, called]; exact walks_called l stack
  | .bounds ubs lbs, stack => by
    rw [walk, called, walks_called ubs]
    cases h : calleds ubs with
    | nil => exact walks_called lbs stack
    | cons g l => rw [walks_done lbs _ rfl]; rfl
  | .var (.function d) ubs lbs, stack => by rw [walk, called]; rfl
  | .var .variable ubs lbs, stack => by
    rw [walk, called, if_neg (by simp), if_neg (by simp)]
    have := found_append (walks_given ubs none stack) (walks_done lbs) fun y => walks_given lbs y stack
    unfold Found at this
    simp only
    rw [List.head?_map]
    cases h : (givens ubs ++ givens lbs).head? with
    | none =>
      rw [h] at this
      obtain ⟨y, e⟩ := this
      rw [e]
      rfl
    | some z =>
      rw [h] at this
      simp only at this
      rw [this]
      rfl
  | .var .other ubs lbs, stack => by rw [walk, called]; rfl
  | .bind t n, stack => by rw [walk, called]; rfl
  | .known none, stack => by rw [walk, called]; rfl
  | .known (some f), stack => by rw [walk, called]; rfl
  | .func _, stack => by rw [walk, called]; rfl
  | .other, stack => by rw [walk, called]; rfl

theorem walks_called : ∀ (l : List Ty) (stack : List (Option Nat)), walks l ⟨stack, none, false⟩ = ⟨stack, (calleds l).head?, false⟩
  | [], stack => by rw [walks, calleds]; rfl
  | t :: l, stack => by
    rw [walks, calleds, walk_called t]
    cases h : called t with
    | nil => exact walks_called l stack
    | cons g m => rw [walks_done l _ rfl]; rfl

end

/-- **C169.** An alias leads to the first function with arguments given in advance that its type may be, and to what is called in the end; of
the arguments given on the way only those of the last `with` are kept. -/
theorem alias_first (ubs lbs : List Ty) :
    findAlias ubs lbs = (givens ubs ++ givens lbs).head?.map fun x => ([some x.1], x.2) := by
  have := walk_given (.var .variable ubs lbs) none []
  rw [given] at this
  unfold Found at this
  unfold findAlias
  cases h : (givens ubs ++ givens lbs).head? with
  | none =>
    rw [h] at this
    obtain ⟨y, e⟩ := this
    rw [e]
    rfl
  | some z =>
    rw [h] at this
    simp only at this
    rw [this]
    rfl

theorem names_called {t : Ty} {g : Target} {s : Option SigTy} {ns : List Nat} (h : Names t g s ns) : called t = [g] := by
  induction h with
  | defined => rw [called]
  | known => rw [called]; rfl
  | aliased _ ih => simp [called, givens, given, ih]

theorem names_sigs {sigOf : Nat → Option SigTy} {t : Ty} {d : FnDocs} {s : SigTy} {g : Target} {o : Option SigTy} {ns : List Nat}
    (h : Names t g o ns) (hg : g = .user d) (ho : o = some s) : sigs sigOf t = [s] := by
  induction h with
  | defined => cases ho; simp [sigs, sigss]
  | known => cases ho
  | aliased _ ih => simp [sigs, sigss, ih hg ho]

theorem names_known {sigOf : Nat → Option SigTy} {t : Ty} {f : Nat} {g : Target} {o : Option SigTy} {ns : List Nat} (h : Names t g o ns)
    (hg : g = .known f) : sigs sigOf t = (sigOf f).toList := by
  induction h with
  | defined => cases hg
  | known => cases hg; simp [sigs]
  | aliased _ ih => simp [sigs, sigss, ih hg]

variable (le : Ty → Ty → Bool) (sigOf : Nat → Option SigTy) (ofFunc : Nat → Sig) (simplify : Nat → Nat) (unknown : Nat)

theorem documented_described {d : FnDocs} {s : SigTy} {p : Primary} (h : documented unknown d s = some p) :
    p.docs = some d.docs ∧ p.sig = s ∧ d.pos.length = s.pos.length ∧ Described d s p.params := by
  unfold documented at h
  split at h
  · cases h
  · rename_i hl
    have hl : d.pos.length = s.pos.length := by simpa using hl
    cases h
    refine ⟨rfl, rfl, hl, ?_, ?_, ?_, ?_⟩
    · simp only [List.length_append, List.length_map, List.length_zip]
      have : (d.rest.map fun p => (⟨p.name, some p.docs, p.default, s.rest, .variadic⟩ : Param)).toList.length = d.rest.toList.length := by
        cases d.rest <;> rfl
      rw [this]
      omega
    · intro i p hp
      have hi := (List.getElem?_eq_some_iff.mp hp).1
      obtain ⟨t, ht⟩ : ∃ t, s.pos[i]? = some t := ⟨s.pos[i], List.getElem?_eq_getElem (by omega)⟩
      rw [List.append_assoc, List.getElem?_append_left (by simp; omega), List.getElem?_map, List.getElem?_zip_eq_some (z := (p, t)) |>.mpr ⟨hp, ht⟩]
      exact ⟨_, rfl, rfl, rfl, rfl, ht.symm, rfl⟩
    · intro i n t ht
      have hi := (List.getElem?_eq_some_iff.mp ht).1
      rw [List.append_assoc, List.getElem?_append_right (by simp; omega), List.getElem?_append_left (by simp; omega), List.getElem?_map]
      have : d.pos.length + i - ((d.pos.zip s.pos).map fun x => (⟨x.1.name, some x.1.docs, x.1.default, some x.2, .positional⟩ : Param)).length
          = i := by simp; omega
      rw [this, ht]
      exact ⟨_, rfl, rfl, rfl, rfl, rfl⟩
    · intro p hp
      rw [List.getElem?_append_right (by simp; omega), hp]
      have : ∀ n, n = 0 → ([(⟨p.name, some p.docs, p.default, s.rest, .variadic⟩ : Param)] : List Param)[n]? =
        some ⟨p.name, some p.docs, p.default, s.rest, .variadic⟩ := by rintro _ rfl; rfl
      simp only [Option.map_some, Option.toList_some]
      rw [this _ (by simp; omega)]
      exact ⟨_, rfl, rfl, rfl, rfl, rfl⟩

theorem sources_var {d : VarDocs} {ubs lbs : List Ty} : ((sources (.var d ubs lbs)).mergeSort le).head? = some (.var d ubs lbs) := by
  rw [sources]; simp

/-- Simplifying the type of a function keeps its parameters and the names of those that have one; only their types are simplified. -/
theorem simplified (f : Nat → Nat) (s : SigTy) : (s.map f).pos = s.pos.map f ∧ (s.map f).rest = s.rest.map f ∧
    (s.map f).named.length = s.named.length ∧ ∀ (i : Nat) n t, s.named[i]? = some (n, t) → (s.map f).named[i]? = some (n, f t) := by
  refine ⟨rfl, rfl, by simp [SigTy.map], ?_⟩
  intro i n t h
  simp [SigTy.map, h]

/-- **C169.** A parameter with a name has the default value that is documented, or one said to be unknown. -/
theorem default_shown {d : FnDocs} {s : SigTy} {p : Primary} (h : documented unknown d s = some p) (i : Nat) (n t : Nat)
    (hn : s.named[i]? = some (n, t)) : ∃ q v, p.params[d.pos.length + i]? = some q ∧ q.name = n ∧ q.default = some v ∧
      ((∃ x, d.named.lookup n = some x ∧ x.default = some v) ∨ ((∀ x, d.named.lookup n = some x → x.default = none) ∧ v = unknown)) := by
  unfold documented at h
  split at h
  · cases h
  · rename_i hl
    have hl : d.pos.length = s.pos.length := by simpa using hl
    cases h
    have hi : i < s.named.length := (List.getElem?_eq_some_iff.mp hn).1
    refine ⟨⟨n, (d.named.lookup n).map ParamDoc.docs, some (((d.named.lookup n).bind ParamDoc.default).getD unknown), some t, .named⟩,
      ((d.named.lookup n).bind ParamDoc.default).getD unknown, ?_, rfl, rfl, ?_⟩
    · simp only [List.append_assoc]
      rw [List.getElem?_append_right (by simp [hl]), List.getElem?_append_left (by simp [hl]; omega)]
      simp [hl, hn]
    · cases hd : d.named.lookup n with
      | none => exact .inr ⟨fun x hx => (by cases hx), rfl⟩
      | some x =>
        cases hx : x.default with
        | none => exact .inr ⟨fun y hy => (by cases hy; exact hx), by simp [hx]⟩
        | some v => exact .inl ⟨x, rfl, by simp [hx]⟩

/-- **C169.** A function that is known by its value has the signature of that value. -/
theorem known_itself (f : Nat) : sigOfType le sigOf ofFunc simplify unknown (.known (some f)) = some (ofFunc f) := by
  unfold sigOfType
  rw [sources]
  simp

/-- **C169.** A function has the parameters that are written, with what is documented of each and the type found for it, whenever its type has as
many positional parameters as are written. -/
theorem defined_described {d : FnDocs} {s : SigTy} (hl : d.pos.length = s.pos.length) :
    ∃ p, sigOfType le sigOf ofFunc simplify unknown (.var (.function d) [] [.func s]) = some ⟨p, none⟩ ∧ p.docs = some d.docs ∧
      Described d (s.map simplify) p.params := by
  obtain ⟨p, hp⟩ : ∃ p, documented unknown d (s.map simplify) = some p := by
    unfold documented
    rw [if_neg (by simp [SigTy.map, hl])]
    exact ⟨_, rfl⟩
  have h := documented_described unknown hp
  refine ⟨p, ?_, h.1, h.2.2.2⟩
  unfold sigOfType
  rw [sources_var]
  simp [sigRepr, sigs, sigss, hp, windStack]

theorem alias_names {t : Ty} {g : Target} {o : Option SigTy} {ns : List Nat} {n : Nat} (h : Names t g o ns) :
    findAlias [] [.bind t n] = some ([some n], g) := by
  rw [alias_first]
  simp [givens, given, names_called h]

theorem shift_wind (p : Primary) (n : Nat) : (windStack [some n] ⟨p, none⟩).shift = min n p.pos.length := by
  unfold windStack Sig.shift
  simp only [List.isEmpty_cons, Bool.false_eq_true, if_false, Option.getD_none, Option.getD_some, List.nil_append, wind, List.drop_zero,
    List.length_nil, List.append_nil]
  split
  · rename_i he
    have := List.isEmpty_iff.mp he
    have := congrArg List.length this
    simp only [List.length_take, List.length_nil] at this
    simp [this]
  · simp

/-- **C169.** A name given to a function, with arguments given in advance, has the parameters of the function, and those of the last `with`
are left out.
Missing: arguments given by a `with` before the last one, which are forgotten. -/
theorem aliased_described_partial {t : Ty} {d : FnDocs} {s : SigTy} {ns : List Nat} {n : Nat} (h : Names t (.user d) (some s) ns)
    (hl : d.pos.length = s.pos.length) :
    ∃ p st, sigOfType le sigOf ofFunc simplify unknown (.var .variable [] [.bind t n]) = some ⟨p, st⟩ ∧ p.docs = some d.docs ∧
      Described d (s.map simplify) p.params ∧ (⟨p, st⟩ : Sig).shift = min n d.pos.length ∧
      (st.getD []).flatten = (p.params.take (min n d.pos.length)).map fun q => some q.name := by
  obtain ⟨p, hp⟩ : ∃ p, documented unknown d (s.map simplify) = some p := by
    unfold documented
    rw [if_neg (by simp [SigTy.map, hl])]
    exact ⟨_, rfl⟩
  have hd := documented_described unknown hp
  have hpos : p.pos = p.params.take d.pos.length := by
    unfold Primary.pos
    rw [hd.2.1, hd.2.2.1]
  have hlen : p.pos.length = d.pos.length := by
    rw [hpos, List.length_take, hd.2.2.2.1]
    omega
  refine ⟨p, (windStack [some n] ⟨p, none⟩).stack, ?_, hd.1, hd.2.2.2, ?_, ?_⟩
  · unfold sigOfType
    rw [sources_var]
    simp only [sigRepr, names_sigs (sigOf := sigOf) (Names.aliased (n := n) h) rfl rfl, List.getLast?_singleton, Option.bind_some,
      alias_names h, hp, Option.map_some]
    rfl
  · have := shift_wind p n
    rw [hlen] at this
    exact this
  · unfold windStack
    simp only [List.isEmpty_cons, Bool.false_eq_true, if_false, Option.getD_none, Option.getD_some, List.nil_append, wind, List.drop_zero,
      List.length_nil, List.append_nil, hpos, List.take_take]
    split
    · rename_i he
      rw [List.isEmpty_iff.mp he]; rfl
    · simp

/-- **C169.** So if arguments are given by one `with`, just the parameters of these arguments are left out. -/
theorem aliased_once {d : FnDocs} {s : SigTy} {n : Nat} (hl : d.pos.length = s.pos.length) :
    ∃ p st, sigOfType le sigOf ofFunc simplify unknown (.var .variable [] [.bind (.var (.function d) [] [.func s]) n]) = some ⟨p, st⟩ ∧
      Described d (s.map simplify) p.params ∧ (⟨p, st⟩ : Sig).shift = min ([n].sum) d.pos.length := by
  obtain ⟨p, st, h1, -, h2, h3, -⟩ := aliased_described_partial le sigOf ofFunc simplify unknown (n := n) (Names.defined (d := d) (s := s)) hl
  exact ⟨p, st, h1, h2, by simpa using h3⟩

/-- **C169, violated.** Arguments given by another `with` before are forgotten: the parameter shown for the next argument is one that is given
already. -/
theorem before_forgotten {t : Ty} {d : FnDocs} {s : SigTy} {ns : List Nat} {n : Nat} (h : Names t (.user d) (some s) ns)
    (hl : d.pos.length = s.pos.length) (hn : n < d.pos.length) (hs : 0 < ns.sum) :
    ∃ sig, sigOfType le sigOf ofFunc simplify unknown (.var .variable [] [.bind t n]) = some sig ∧
      sig.shift < min (n :: ns).sum d.pos.length := by
  obtain ⟨p, st, h1, -, -, h3, -⟩ := aliased_described_partial le sigOf ofFunc simplify unknown (n := n) h hl
  refine ⟨_, h1, ?_⟩
  rw [h3, List.sum_cons]
  omega

/-- **C169, violated.** Nothing is found for `let g = f.with(..).with(..)`, though `f` is a documented function. -/
theorem twice_unknown {t : Ty} {m n : Nat} : sigOfType le sigOf ofFunc simplify unknown (.var .variable [] [.bind (.bind t m) n]) = none := by
  unfold sigOfType
  rw [sources_var]
  have : findAlias [] [.bind (.bind t m) n] = none := by
    rw [alias_first]
    simp [givens, given, called]
  simp only [this]
  cases sigRepr sigOf (.var .variable [] [.bind (.bind t m) n]) <;> rfl

/-- **C169, violated.** Nothing is found for a name whose value is another name of the function. -/
theorem plain_unknown {d : VarDocs} {s : SigTy} {ubs : List Ty} (hu : givens ubs = []) :
    sigOfType le sigOf ofFunc simplify unknown (.var .variable [] [.var d ubs [.func s]]) = none := by
  unfold sigOfType
  rw [sources_var]
  have : findAlias [] [.var d ubs [.func s]] = none := by
    rw [alias_first]
    simp [givens, given, hu]
  simp only [this]
  cases sigRepr sigOf (.var .variable [] [.var d ubs [.func s]]) <;> rfl

/-- **C169.** A name of a function that is known, with arguments given in advance, has the signature of this function, behind those it has
been given before. -/
theorem known_aliased {t : Ty} {f : Nat} {o : Option SigTy} {ns : List Nat} {n : Nat} (h : Names t (.known f) o ns)
    (hs : (sigOf f).isSome = true) :
    sigOfType le sigOf ofFunc simplify unknown (.var .variable [] [.bind t n]) = some (windStack [some n] (ofFunc f)) := by
  unfold sigOfType
  rw [sources_var]
  obtain ⟨s, hs⟩ := Option.isSome_iff_exists.mp hs
  simp only [sigRepr, names_known (sigOf := sigOf) (Names.aliased (n := n) h) rfl, hs, Option.toList_some, List.getLast?_singleton,
    Option.bind_some, alias_names h]

/-- **C169, violated.** Where the function known had arguments given before, as many parameters are taken to be given as there were calls of
`with`, not as many as there were arguments. -/
theorem skipped_calls (p : Primary) (args : List (Option Nat)) (n : Nat) (q : Param) (hq : p.pos[1]? = some q) (h : 2 ≤ args.length) (hn : 0 < n) :
    ∃ st x, (windStack [some n] ⟨p, some [args]⟩).stack = some (args :: [st]) ∧ st[0]? = some x ∧ x = some q.name ∧ 1 < args.length := by
  unfold windStack
  simp only [List.isEmpty_cons, Bool.false_eq_true, if_false, Option.getD_some, List.length_singleton, wind, List.append_nil]
  have hd : p.pos.drop 1 = q :: p.pos.drop 2 := by
    obtain ⟨hlt, e⟩ := List.getElem?_eq_some_iff.mp hq
    rw [List.drop_eq_getElem_cons hlt, e]
  obtain ⟨m, rfl⟩ : ∃ m, n = m + 1 := ⟨n - 1, by omega⟩
  rw [hd, List.take_succ_cons]
  exact ⟨_, _, rfl, rfl, rfl, h⟩

/-- **C169.** A name that nothing is documented of, or that leads to no function, has no signature. -/
theorem none_unknown {ubs lbs : List Ty} : sigOfType le sigOf ofFunc simplify unknown (.var .other ubs lbs) = none ∧
    (givens ubs ++ givens lbs = [] → sigOfType le sigOf ofFunc simplify unknown (.var .variable ubs lbs) = none) := by
  constructor
  · unfold sigOfType
    rw [sources_var]
    simp only
    cases sigRepr sigOf (.var .other ubs lbs) <;> rfl
  · intro h
    unfold sigOfType
    rw [sources_var]
    have : findAlias ubs lbs = none := by rw [alias_first, h]; rfl
    simp only [this]
    cases sigRepr sigOf (.var .variable ubs lbs) <;> rfl

/-! ## The hypotheses are met -/

/-- `let f(x, y) = ..`, `let g = f.with(1)`, `let h = g.with(2)`: a call of `h` is told to fill `y`, which is filled. -/
def exDocs : FnDocs := ⟨0, [⟨1, 0, none⟩, ⟨2, 0, none⟩], [], none⟩

def exSig : SigTy := ⟨[10, 11], [], none⟩

def exF : Ty := .var (.function exDocs) [] [.func exSig]

def exG : Ty := .var .variable [] [.bind exF 1]

def exH : Ty := .var .variable [] [.bind exG 1]

example : Names exG (.user exDocs) (some exSig) [1] ∧ exDocs.pos.length = exSig.pos.length ∧ 1 < exDocs.pos.length := by
  exact ⟨.aliased .defined, rfl, by decide⟩

example : (sigOfType (fun _ _ => true) (fun _ => none) (fun _ => ⟨⟨none, [], exSig⟩, none⟩) id 0 exH).map Sig.shift = some 1 := by
  simp [exH, exG, exF, sigOfType, sources, findAlias, walk, walks, setTop, sigRepr, sigs, sigss, documented, exDocs, exSig, SigTy.map, windStack,
    wind, Primary.pos, Sig.shift]

end Tinymist.Alias
