import Verif.Lemmas.TypeOffer

/-! # Theorems about what is offered for a type and for a function -/

namespace Tinymist.TypeOffer

/-! ## Types -/

/-- The list for a type: every type it stands for is met once, without those that are excluded; each gives its items; and each thing that is
offered only once is there once if one of the types has it, unless it is the name of an argument that is there. -/
theorem offered (w : Where) (self : Option Ty) (named : List Nat) (t : Ty) : ∃ (met : List Ty) (keys : List Key),
    met.Nodup ∧ keys.Nodup ∧ (∀ u, u ∈ met ↔ Met w.inText self.toList t u) ∧
    (∀ k, k ∈ keys ↔ (∀ n ∈ named, k ≠ .field n) ∧ ∃ u ∈ met, Once w u k) ∧
    (typeCompletions w self named t).Perm (met.flatMap (Plain w.inText) ++ keys.map .once) := by
  obtain ⟨new, kn, h⟩ := offer_walked w (depth t + 1) t ⟨self.toList, named.map .field, []⟩ (Nat.le_succ_of_le (rank_depth t))
  refine ⟨new, kn, h.nodup, h.keyNodup, ?_, ?_, ?_⟩
  · intro u
    constructor
    · intro hu
      obtain ⟨r, hr, hm⟩ := h.reached u hu
      rw [List.mem_singleton.mp hr] at hm
      exact hm
    · intro hm
      have hin : ∀ {v}, v ∉ self.toList → v ∈ (offer w (depth t + 1) t ⟨self.toList, named.map .field, []⟩).seen → v ∈ new := by
        intro v hn hv
        rw [h.seen] at hv
        exact (List.mem_append.mp hv).resolve_right hn
      induction hm with
      | here hn => exact hin hn (h.rooted t (List.mem_singleton_self t))
      | step _ hl hn ih => exact hin hn (h.closed _ ih _ hl)
  · intro k
    constructor
    · intro hk
      refine ⟨?_, (h.keyOf k hk).resolve_left (nofun)⟩
      rintro n hn rfl
      exact h.keyFresh _ hk (List.mem_map.mpr ⟨n, hn, rfl⟩)
    · rintro ⟨hn, hu⟩
      have := h.keyAll k (.inr hu)
      rw [h.keys] at this
      refine (List.mem_append.mp this).resolve_right fun hm => ?_
      obtain ⟨n, hn', rfl⟩ := List.mem_map.mp hm
      exact hn n hn' rfl
  · obtain ⟨o, he, hp⟩ := h.out
    unfold typeCompletions
    rw [he]
    exact hp

mutual
/-- With more fuel the walk is the same. -/
theorem fuel_offer (w : Where) : ∀ (n m : Nat) (t : Ty) (s : State), rank t ≤ n → rank t ≤ m → offer w n t s = offer w m t s
  | 0, _, t, _, h, _ => absurd h (by have := rank_pos t; omega)
  | _, 0, t, _, _, h => absurd h (by have := rank_pos t; omega)
  | n + 1, m + 1, t, s, hn, hm => by
    simp only [offer]
    split
    · rfl
    · exact fuel_run w n m (steps w t) _ (fun u hu => by have := leads_rank ((steps_sub w t u).mp hu); omega)
        (fun u hu => by have := leads_rank ((steps_sub w t u).mp hu); omega)
  termination_by n _ _ _ => (n, 0)

theorem fuel_run (w : Where) (n m : Nat) : ∀ (l : List Step) (s : State), (∀ t, .sub t ∈ l → rank t ≤ n) →
    (∀ t, .sub t ∈ l → rank t ≤ m) → run w n l s = run w m l s
  | [], s, _, _ => by simp only [run]
  | .emit o :: rest, s, h, h' => by
    simp only [run]
    exact fuel_run w n m rest _ (fun t ht => h t (List.mem_cons_of_mem _ ht)) (fun t ht => h' t (List.mem_cons_of_mem _ ht))
  | .once k :: rest, s, h, h' => by
    simp only [run]
    exact fuel_run w n m rest _ (fun t ht => h t (List.mem_cons_of_mem _ ht)) (fun t ht => h' t (List.mem_cons_of_mem _ ht))
  | .sub t :: rest, s, h, h' => by
    simp only [run]
    rw [fuel_offer w n m t s (h t List.mem_cons_self) (h' t List.mem_cons_self)]
    exact fuel_run w n m rest _ (fun t ht => h t (List.mem_cons_of_mem _ ht)) (fun t ht => h' t (List.mem_cons_of_mem _ ht))
  termination_by l _ _ _ => (n, l.length + 1)
end

/-- The walk ends by itself: any greater depth gives the same list. -/
theorem walk_ends (w : Where) (self : Option Ty) (named : List Nat) (t : Ty) (fuel : Nat) (h : depth t + 1 ≤ fuel) :
    (offer w fuel t ⟨self.toList, named.map .field, []⟩).out = typeCompletions w self named t := by
  unfold typeCompletions
  have := rank_depth t
  rw [fuel_offer w fuel (depth t + 1) t _ (by omega) (by omega)]

theorem plain_ne {b : Bool} {t : Ty} {k : Key} : Out.once k ∉ Plain b t := by
  unfold Plain
  intro h
  split at h <;> (try split at h) <;> simp_all

/-- An item is in the list just if a type that was met has it, by itself or as one that is offered once. -/
theorem mem_offered (w : Where) (self : Option Ty) (named : List Nat) (t : Ty) (o : Out) : o ∈ typeCompletions w self named t ↔
    (∃ u, Met w.inText self.toList t u ∧ o ∈ Plain w.inText u) ∨
    ∃ k, o = .once k ∧ (∀ n ∈ named, k ≠ .field n) ∧ ∃ u, Met w.inText self.toList t u ∧ Once w u k := by
  obtain ⟨met, keys, _, _, hm, hk, hp⟩ := offered w self named t
  rw [hp.mem_iff, List.mem_append, List.mem_flatMap, List.mem_map]
  constructor
  · rintro (⟨u, hu, ho⟩ | ⟨k, hkk, rfl⟩)
    · exact .inl ⟨u, (hm u).mp hu, ho⟩
    · obtain ⟨hn, u, hu, ho⟩ := (hk k).mp hkk
      exact .inr ⟨k, rfl, hn, u, (hm u).mp hu, ho⟩
  · rintro (⟨u, hu, ho⟩ | ⟨k, rfl, hn, u, hu, ho⟩)
    · exact .inl ⟨u, (hm u).mpr hu, ho⟩
    · exact .inr ⟨k, (hk k).mpr ⟨hn, u, (hm u).mpr hu, ho⟩, rfl⟩

/-- Arguments, values, constructors, elements and labels are not offered twice.
Missing: snippets, which may be offered more than once. -/
theorem once_each_partial (w : Where) (self : Option Ty) (named : List Nat) (t : Ty) (k : Key) :
    (typeCompletions w self named t).count (.once k) ≤ 1 := by
  obtain ⟨met, keys, _, hn, _, _, hp⟩ := offered w self named t
  rw [hp.count_eq, List.count_append, List.count_eq_zero.mpr, Nat.zero_add]
  · refine List.nodup_iff_count.mp ?_ _
    exact List.Pairwise.map _ (fun a b h e => h (by injection e)) hn
  · intro h
    obtain ⟨u, _, hu⟩ := List.mem_flatMap.mp h
    exact plain_ne hu

/-- An argument that is there is not offered again. -/
theorem argument_given (w : Where) (self : Option Ty) (named : List Nat) (t : Ty) {n : Nat} (h : n ∈ named) :
    .once (.field n) ∉ typeCompletions w self named t := by
  intro hm
  rcases (mem_offered w self named t _).mp hm with ⟨u, _, ho⟩ | ⟨k, e, hn, _⟩
  · exact plain_ne ho
  · cases e; exact hn n h rfl

/-- In the text of a string only paths, fonts, their features and strings are offered. -/
theorem text_only (w : Where) (hw : w.inText = true) (self : Option Ty) (named : List Nat) (t : Ty) (o : Out)
    (h : o ∈ typeCompletions w self named t) :
    (∃ p, o = .path p) ∨ o = .fonts ∨ o = .features ∨ ∃ s, o = .once (.value (.str s)) := by
  rcases (mem_offered w self named t o).mp h with ⟨u, _, ho⟩ | ⟨k, rfl, _, u, _, hk⟩
  · rw [hw] at ho
    unfold Plain at ho
    split at ho <;> simp_all
  · cases hk with
    | string => exact .inr (.inr (.inr ⟨_, rfl⟩))
    | _ => simp_all

/-- Behind the mark of a label or a reference, no names of arguments are offered. -/
theorem no_names (w : Where) (hw : w.behindMark = true) (self : Option Ty) (named : List Nat) (t : Ty) (n : Nat) :
    .once (.field n) ∉ typeCompletions w self named t := by
  intro hm
  rcases (mem_offered w self named t _).mp hm with ⟨u, _, ho⟩ | ⟨k, e, _, u, _, hk⟩
  · exact plain_ne ho
  · cases e
    cases hk with
    | field _ h => rw [hw] at h; cases h

/-- The value that is there is not offered for its own type.
Missing: values whose type says where they were written. -/
theorem self_excluded_partial (w : Where) (named : List Nat) (v : Val) (d : Nat) :
    typeCompletions w (some (.leaf (.value v d))) named (.leaf (.value v d)) = [] := by
  refine List.eq_nil_iff_forall_not_mem.mpr fun o h => ?_
  have hno : ∀ u, ¬ Met w.inText [.leaf (.value v d)] (.leaf (.value v d)) u := fun u hm => hm.start (List.mem_singleton_self _)
  rcases (mem_offered w _ named _ o).mp h with ⟨u, hu, _⟩ | ⟨_, _, _, u, hu, _⟩
  · exact hno u hu
  · exact hno u hu

/-- It is, though, if its type says where it was written, as the types of literals do. -/
theorem self_offered (named : List Nat) (v d : Nat) : typeCompletions ⟨false, false, [], [], []⟩ (some (.leaf (.value (.other v) d))) named
    (.leaf (.value (.other v) (d + 1))) = [.once (.value (.other v))] := by
  have hne : ¬ Ty.leaf (.value (.other v) (d + 1)) ∈ [Ty.leaf (.value (.other v) d)] := by
    simp
  have hk : ¬ Key.value (.other v) ∈ named.map Key.field := by simp
  simp only [typeCompletions, depth, offer, Option.toList, if_neg hne, steps, Where.passes, Bool.false_eq_true, if_false, if_true, run,
    if_neg hk, List.nil_append]

/-- A text may be offered more than once: of an array or a dictionary, for example, the same parentheses. -/
theorem texts_twice (w : Where) (hw : w.inText = false) (named : List Nat) (m n : Nat) : typeCompletions w none named
    (.node .union [.leaf (.sequence m), .leaf (.dict n)]) = [.snippet "()" "(${})", .snippet "()" "(${})"] := by
  simp [typeCompletions, depth, depths, offer, steps, run, snippet, Where.passes, hw]

/-- A stroke: everything of the colors and lengths as well, and each once. -/
example : (typeCompletions ⟨false, false, [], [], []⟩ none [] (.node .union [.leaf (.builtin .stroke), .leaf (.builtin .margin),
    .leaf (.value (.type .auto) 0)])).length = 17 := by
  simp [typeCompletions, depth, depths, offer, steps, run, snippet, Where.passes, builtinSteps, typeSteps, sub]

/-- Arguments with names, one of which is given. -/
example : typeCompletions ⟨false, false, [], [], []⟩ none [7] (.node .union [.node (.param 7 false true) [.leaf (.builtin .length)],
    .node (.param 8 true true) [.leaf (.builtin .none)], .node (.param 8 false true) [.leaf (.quiet 0)]]) =
    [.snippet "none" "none", .once (.field 8)] := by
  simp [typeCompletions, depth, depths, offer, steps, run, snippet, Where.passes, builtinSteps]

/-- In a string. -/
example : typeCompletions ⟨true, false, [], [], []⟩ none [] (.node (.bounds 1) [.leaf (.builtin .textFont), .leaf (.builtin .length),
    .leaf (.value (.str 3) 0), .leaf (.value (.str 3) 1)]) = [.fonts, .once (.value (.str 3))] := by
  simp [typeCompletions, depth, depths, offer, steps, run, Where.passes, builtinSteps]

theorem after_some {ch : Char} : ∀ {l cs : List Char}, after ch l = some cs → ∃ pre, l = pre ++ ch :: cs
  | c :: l, cs, h => by
    simp only [after] at h
    split at h
    · rename_i e
      injection h with h
      exact ⟨[], by rw [e, h]; rfl⟩
    · obtain ⟨pre, e⟩ := after_some h
      exact ⟨c :: pre, by rw [e]; rfl⟩

theorem after_none {ch : Char} : ∀ {l : List Char}, after ch l = none → ch ∉ l
  | [], _ => by simp
  | c :: l, h => by
    simp only [after] at h
    split at h
    · cases h
    · rename_i hne
      intro hm
      rcases List.mem_cons.mp hm with e | hm
      · exact hne e.symm
      · exact after_none h hm

theorem after_first {ch : Char} : ∀ {l cs : List Char}, after ch l = some cs → ∀ {p : List Char}, (ch :: p).Sublist l → p.Sublist cs
  | c :: l, cs, h, p, hs => by
    simp only [after] at h
    split at h
    · injection h with h
      subst h
      cases hs with
      | cons _ hs => exact (List.sublist_cons_self ch p).trans hs
      | cons_cons _ hs => exact hs
    · rename_i hne
      cases hs with
      | cons _ hs => exact after_first h hs
      | cons_cons _ hs => exact absurd rfl hne

theorem fits_iff : ∀ (p l : List Char), fits p l = true ↔ p.Sublist l
  | [], l => by simp [fits]
  | ch :: p, l => by
    simp only [fits]
    cases h : after ch l with
    | none =>
      refine ⟨nofun, fun hs => ?_⟩
      exact absurd (hs.subset List.mem_cons_self) (after_none h)
    | some cs =>
      simp only
      rw [fits_iff p cs]
      constructor
      · intro hs
        obtain ⟨pre, rfl⟩ := after_some h
        exact (List.Sublist.cons_cons ch hs).trans (List.sublist_append_right pre _)
      · exact after_first h

/-- With the cursor in a name, the items remain, in their order, whose labels have the characters before the cursor in this order. -/
theorem narrowed_iff (p : List Char) (labels : List (List Char)) : (narrowed (some p) labels).Sublist labels ∧
    ∀ l, l ∈ narrowed (some p) labels ↔ l ∈ labels ∧ p.Sublist l := by
  refine ⟨List.filter_sublist, fun l => ?_⟩
  simp only [narrowed, List.mem_filter, fits_iff]

/-- Elsewhere all remain. -/
theorem not_narrowed (labels : List (List Char)) : narrowed none labels = labels := rfl

example : narrowed (some "fig".toList) ["figure".toList, "file-origin".toList, "gif".toList] = ["figure".toList, "file-origin".toList] := by
  decide +kernel

/-! ## Functions -/

theorem sig_of (c : Callable) : (∃ k s, HasSig c k s) ∨ ∀ k s, ¬ HasSig c k s := by
  induction c with
  | func s g e o => exact .inl ⟨_, _, .func⟩
  | closure s => exact .inl ⟨_, _, .closure⟩
  | given n c ih =>
    rcases ih with ⟨k, s, h⟩ | h
    · exact .inl ⟨_, _, .given h⟩
    · exact .inr fun k s h' => by cases h' with | given h' => exact h _ _ h'
  | element s => exact .inl ⟨_, _, .element⟩
  | type s =>
    cases s with
    | none => exact .inr fun k s h => nomatch h
    | some s => exact .inl ⟨_, _, .type⟩
  | other => exact .inr fun k s h => nomatch h

theorem sig_unique {c : Callable} {k : Nat} {s : Sig} (h : HasSig c k s) : ∀ {k' s'}, HasSig c k' s' → k' = k ∧ s' = s := by
  induction h with
  | func => intro k' s' h; cases h; exact ⟨rfl, rfl⟩
  | closure => intro k' s' h; cases h; exact ⟨rfl, rfl⟩
  | given _ ih => intro k' s' h; cases h with | given h => have := ih h; exact ⟨by omega, this.2⟩
  | element => intro k' s' h; cases h; exact ⟨rfl, rfl⟩
  | type => intro k' s' h; cases h; exact ⟨rfl, rfl⟩

/-- What the features say of the callables seen so far. -/
structure Says (bound : Bool) (cs : List Callable) (f : Feat) : Prop where
  pos : 0 < f.minPos.getD 0 ↔ NeedsPos cs
  named : 0 < f.minNamed.getD 0 ↔ NeedsNamed cs
  posSome : f.minPos.isSome ↔ ∃ c ∈ cs, ∃ k s, HasSig c k s
  namedSome : f.minNamed.isSome ↔ ∃ c ∈ cs, ∃ k s, HasSig c k s
  rest : f.rest = true ↔ TakesMore cs
  content : f.content = true ↔ NextContent cs
  element : f.element = true ↔ ∃ c ∈ cs, IsElement c
  onlySelf : f.onlySelf = true ↔ bound = true ∧ ∃ c ∈ cs, OnlySelf c

/-- `check_one` is one step for the signature, with what it says of elements and `self`. -/
theorem check_eq (bound : Bool) (c : Callable) : ∀ (f : Feat) (idx : Nat),
    (∃ k s e o, HasSig c k s ∧ (e = true ↔ IsElement c) ∧ (o = true ↔ OnlySelf c) ∧
      f.check bound c idx = Feat.sig { f with element := f.element || e, onlySelf := f.onlySelf || (bound && o) } s (idx + k)) ∨
    ((∀ k s, ¬ HasSig c k s) ∧ ¬ IsElement c ∧ ¬ OnlySelf c ∧ f.check bound c idx = f) := by
  induction c with
  | func s g e o =>
    intro f idx
    refine .inl ⟨0, s, e, o, .func, ?_, ?_, rfl⟩
    · constructor
      · rintro rfl; exact .func
      · intro h; cases h; rfl
    · constructor
      · rintro rfl; exact .func
      · intro h; cases h; rfl
  | closure s =>
    intro f idx
    refine .inl ⟨0, s, false, false, .closure, ⟨nofun, nofun⟩, ⟨nofun, nofun⟩, ?_⟩
    simp [Feat.check]
  | given n c ih =>
    intro f idx
    rcases ih f (idx + n) with ⟨k, s, e, o, hs, he, ho, h⟩ | ⟨hs, he, ho, h⟩
    · refine .inl ⟨k + n, s, e, o, .given hs, he.trans ⟨.given, fun h => ?_⟩, ho.trans ⟨.given, fun h => ?_⟩, ?_⟩
      · cases h; assumption
      · cases h; assumption
      · rw [Feat.check, h, show idx + n + k = idx + (k + n) from by omega]
    · refine .inr ⟨fun k s h => ?_, fun h => ?_, fun h => ?_, ?_⟩
      · cases h with | given h => exact hs _ _ h
      · cases h; exact he (by assumption)
      · cases h; exact ho (by assumption)
      · rw [Feat.check, h]
  | element s =>
    intro f idx
    refine .inl ⟨0, s, true, false, .element, ⟨fun _ => .element, fun _ => rfl⟩, ⟨nofun, nofun⟩, ?_⟩
    simp [Feat.check]
  | type s =>
    intro f idx
    cases s with
    | none => exact .inr ⟨nofun, nofun, nofun, rfl⟩
    | some s =>
      refine .inl ⟨0, s, false, false, .type, ⟨nofun, nofun⟩, ⟨nofun, nofun⟩, ?_⟩
      simp [Feat.check]
  | other => intro f idx; exact .inr ⟨nofun, nofun, nofun, rfl⟩

theorem says_step {bound : Bool} {cs : List Callable} {f : Feat} (h : Says bound cs f) (c : Callable) :
    Says bound (cs ++ [c]) (f.check bound c 0) := by
  have ex : ∀ {P : Callable → Prop}, (∃ x ∈ cs ++ [c], P x) ↔ (∃ x ∈ cs, P x) ∨ P c := by
    intro P
    constructor
    · rintro ⟨x, hx, hp⟩
      rcases List.mem_append.mp hx with hx | hx
      · exact .inl ⟨x, hx, hp⟩
      · rw [List.mem_singleton.mp hx] at hp; exact .inr hp
    · rintro (⟨x, hx, hp⟩ | hp)
      · exact ⟨x, List.mem_append_left _ hx, hp⟩
      · exact ⟨c, List.mem_append_right _ (List.mem_singleton_self c), hp⟩
  have all : ∀ {P : Callable → Prop}, (∀ x ∈ cs ++ [c], P x) ↔ (∀ x ∈ cs, P x) ∧ P c := by
    intro P
    constructor
    · intro h
      exact ⟨fun x hx => h x (List.mem_append_left _ hx), h c (List.mem_append_right _ (List.mem_singleton_self c))⟩
    · rintro ⟨h, hc⟩ x hx
      rcases List.mem_append.mp hx with hx | hx
      · exact h x hx
      · rw [List.mem_singleton.mp hx]; exact hc
  rcases check_eq bound c f 0 with ⟨k, s, e, o, hs, he, ho, hf⟩ | ⟨hs, he, ho, hf⟩
  · rw [hf, Nat.zero_add]
    have hone : ∀ {P : Nat → Sig → Prop}, (∃ k s, HasSig c k s ∧ P k s) ↔ P k s := by
      intro P
      constructor
      · rintro ⟨k', s', h1, h2⟩; obtain ⟨rfl, rfl⟩ := sig_unique hs h1; exact h2
      · intro h; exact ⟨k, s, hs, h⟩
    have hall : ∀ {P : Nat → Sig → Prop}, (∀ k s, HasSig c k s → P k s) ↔ P k s := by
      intro P
      constructor
      · intro h; exact h k s hs
      · intro h k' s' h1; obtain ⟨rfl, rfl⟩ := sig_unique hs h1; exact h
    have hex : ∃ k s, HasSig c k s := ⟨k, s, hs⟩
    refine ⟨?_, ?_, ?_, ?_, ?_, ?_, ?_, ?_⟩
    · have hp := h.pos
      have hps := h.posSome
      unfold NeedsPos at hp ⊢
      rw [ex, all, hall]
      simp only [Feat.sig, Option.getD_some]
      cases hm : f.minPos with
      | none =>
        rw [hm] at hps
        have hno : ¬ ∃ c ∈ cs, ∃ k s, HasSig c k s := fun hh => by simpa using hps.mpr hh
        simp only [Option.elim_none]
        constructor
        · intro hlt
          exact ⟨.inr hex, fun x hx k s hh => absurd ⟨x, hx, k, s, hh⟩ hno, by omega⟩
        · rintro ⟨_, _, hlt⟩; omega
      | some v =>
        rw [hm] at hps hp
        have hyes := hps.mp rfl
        simp only [Option.elim_some, Option.getD_some] at hp ⊢
        have hmin : 0 < Nat.min v (s.positional.length - k) ↔ 0 < v ∧ k < s.positional.length := by
          simp only [Nat.min_def]; split <;> omega
        rw [hmin, hp]
        constructor
        · rintro ⟨⟨_, h1⟩, h2⟩; exact ⟨.inl hyes, h1, h2⟩
        · rintro ⟨_, h1, h2⟩; exact ⟨⟨hyes, h1⟩, h2⟩
    · have hp := h.named
      have hps := h.namedSome
      unfold NeedsNamed at hp ⊢
      rw [ex, all, hall]
      simp only [Feat.sig, Option.getD_some]
      cases hm : f.minNamed with
      | none =>
        rw [hm] at hps
        have hno : ¬ ∃ c ∈ cs, ∃ k s, HasSig c k s := fun hh => by simpa using hps.mpr hh
        simp only [Option.elim_none]
        constructor
        · intro hlt
          exact ⟨.inr hex, fun x hx k s hh => absurd ⟨x, hx, k, s, hh⟩ hno, by omega⟩
        · rintro ⟨_, _, hlt⟩; omega
      | some v =>
        rw [hm] at hps hp
        have hyes := hps.mp rfl
        simp only [Option.elim_some, Option.getD_some] at hp ⊢
        have hmin : 0 < Nat.min v s.named ↔ 0 < v ∧ 0 < s.named := by
          simp only [Nat.min_def]; split <;> omega
        rw [hmin, hp]
        constructor
        · rintro ⟨⟨_, h1⟩, h2⟩; exact ⟨.inl hyes, h1, h2⟩
        · rintro ⟨_, h1, h2⟩; exact ⟨⟨hyes, h1⟩, h2⟩
    · rw [ex]; simp [Feat.sig, hex]
    · rw [ex]; simp [Feat.sig, hex]
    · unfold TakesMore
      rw [ex, hone]
      simp only [Feat.sig, Bool.or_eq_true, h.rest, TakesMore]
    · unfold NextContent
      rw [ex, hone]
      simp only [Feat.sig, Bool.or_eq_true, h.content, NextContent, beq_iff_eq]
    · rw [ex]
      simp only [Feat.sig, Bool.or_eq_true, h.element, he]
    · rw [ex]
      simp only [Feat.sig, Bool.or_eq_true, Bool.and_eq_true, h.onlySelf, ho]
      constructor
      · rintro (⟨h1, h2⟩ | ⟨h1, h2⟩)
        · exact ⟨h1, .inl h2⟩
        · exact ⟨h1, .inr h2⟩
      · rintro ⟨h1, h2 | h2⟩
        · exact .inl ⟨h1, h2⟩
        · exact .inr ⟨h1, h2⟩
  · rw [hf]
    have hno : ¬ ∃ k s, HasSig c k s := fun ⟨k, s, h⟩ => hs k s h
    have hall : ∀ {P : Nat → Sig → Prop}, ∀ k s, HasSig c k s → P k s := fun k s h => absurd h (hs k s)
    have hnone : ∀ {P : Nat → Sig → Prop}, ¬ ∃ k s, HasSig c k s ∧ P k s := fun ⟨k, s, h, _⟩ => hs k s h
    refine ⟨?_, ?_, ?_, ?_, ?_, ?_, ?_, ?_⟩
    · rw [h.pos]; unfold NeedsPos; rw [ex, all]
      exact ⟨fun ⟨a, b⟩ => ⟨.inl a, b, hall⟩, fun ⟨a, b, _⟩ => ⟨a.resolve_right hno, b⟩⟩
    · rw [h.named]; unfold NeedsNamed; rw [ex, all]
      exact ⟨fun ⟨a, b⟩ => ⟨.inl a, b, hall⟩, fun ⟨a, b, _⟩ => ⟨a.resolve_right hno, b⟩⟩
    · rw [h.posSome, ex]; exact ⟨.inl, fun a => a.resolve_right hno⟩
    · rw [h.namedSome, ex]; exact ⟨.inl, fun a => a.resolve_right hno⟩
    · rw [h.rest]; unfold TakesMore; rw [ex]; exact ⟨.inl, fun a => a.resolve_right hnone⟩
    · rw [h.content]; unfold NextContent; rw [ex]; exact ⟨.inl, fun a => a.resolve_right hnone⟩
    · rw [h.element, ex]; exact ⟨.inl, fun a => a.resolve_right he⟩
    · rw [h.onlySelf, ex]; exact ⟨fun ⟨a, b⟩ => ⟨a, .inl b⟩, fun ⟨a, b⟩ => ⟨a, b.resolve_right ho⟩⟩

theorem feat_says (bound : Bool) (cs : List Callable) : Says bound cs (feat bound cs) := by
  have base : Says bound [] ⟨none, false, none, false, false, false⟩ := by
    refine ⟨?_, ?_, ?_, ?_, ?_, ?_, ?_, ?_⟩ <;> simp [NeedsPos, NeedsNamed, TakesMore, NextContent]
  have : ∀ (l pre : List Callable) (f : Feat), Says bound pre f → Says bound (pre ++ l) (l.foldl (fun f c => f.check bound c 0) f) := by
    intro l
    induction l with
    | nil => intro pre f h; simpa using h
    | cons c l ih =>
      intro pre f h
      have := ih (pre ++ [c]) _ (says_step h c)
      simpa using this
  exact this cs [] _ base

/-- The items for a name are those of the specification: with, where, alone, called, with arguments and with content.
Missing: functions with arguments given in advance that are evaluated, methods of content and names of several functions with different parameters. -/
theorem items_iff_partial (around : Around) (math bound parens : Bool) (cs : List Callable) (name : String) (i : Item) :
    i ∈ funcItems around math (feat bound cs) name parens ↔ Offered around math bound parens cs name i := by
  have hf := feat_says bound cs
  have hpos : (feat bound cs).minPos.getD 0 > 0 ↔ NeedsPos cs := hf.pos
  have hnpos : (feat bound cs).minPos.getD 0 < 1 ↔ ¬ NeedsPos cs := by rw [← hf.pos]; omega
  have hel : (feat bound cs).element = false ↔ ¬ ∃ c ∈ cs, IsElement c := by rw [← hf.element]; simp
  have hre : (feat bound cs).rest = false ↔ ¬ TakesMore cs := by rw [← hf.rest]; simp
  have hna : ((feat bound cs).minPos.getD 0 < 1 ∨ (feat bound cs).onlySelf = true) ∧ (feat bound cs).rest = false ↔
      NoArguments bound cs := by
    unfold NoArguments
    rw [hnpos, hf.onlySelf, hre]
  have hnamed : (feat bound cs).minNamed.getD 0 > 0 ↔ NeedsNamed cs := hf.named
  simp only [funcItems, List.mem_append]
  constructor
  · rintro ((h | h) | h)
    · split at h
      · rename_i hc
        rw [List.mem_singleton.mp h]
        exact .withArgs hc.1 (hc.2.imp hpos.mp hnamed.mp)
      · cases h
    · split at h
      · rename_i hc
        rw [List.mem_singleton.mp h]
        exact .filtered hc.2 (hf.element.mp hc.1)
      · cases h
    · split at h
      · cases h
      · rename_i hbad
        have hgood : around = .selector ∨ around = .setRule → ∃ c ∈ cs, IsElement c := by
          intro ha
          exact Classical.byContradiction fun hn => hbad ⟨ha, hel.mpr hn⟩
        split at h
        · rename_i hp
          rw [List.mem_singleton.mp h]
          exact .alone hgood hp
        · rename_i hp
          have hpar : parens = true := by cases parens with | true => rfl | false => exact absurd (.inl rfl) hp
          have hsel : around ≠ .selector := fun e => hp (.inr e)
          split at h
          · rename_i hargs
            rw [List.mem_singleton.mp h]
            exact .called (fun e => hgood (.inr e)) hpar hsel (hna.mp hargs)
          · rename_i hargs
            rcases List.mem_append.mp h with h | h
            · rw [List.mem_singleton.mp h]
              exact .arguments (fun e => hgood (.inr e)) hpar hsel fun e => hargs (hna.mpr e)
            · split at h
              · rename_i hc
                rw [List.mem_singleton.mp h]
                have hm : math = false := by cases math with | false => rfl | true => exact absurd (.inl rfl) hc.1
                exact .content hsel (fun e => hc.1 (.inr (.inr e))) hm hpar (fun e => hargs (hna.mpr e))
                  (hf.content.mp hc.2.1) (hre.mp hc.2.2)
              · cases h
  · intro h
    cases h with
    | withArgs ha hn => exact .inl (.inl (by rw [if_pos ⟨ha, hn.imp hpos.mpr hnamed.mpr⟩]; exact List.mem_singleton_self _))
    | filtered ha he => exact .inl (.inr (by rw [if_pos ⟨hf.element.mpr he, ha⟩]; exact List.mem_singleton_self _))
    | alone hg hp =>
      refine .inr ?_
      rw [if_neg (fun hb => hel.mp hb.2 (hg hb.1)), if_pos hp]
      exact List.mem_singleton_self _
    | called hg hp hs hargs =>
      refine .inr ?_
      rw [if_neg (fun hb => hel.mp hb.2 (hg (hb.1.resolve_left hs))), if_neg (by simp [hp, hs]), if_pos (hna.mpr hargs)]
      exact List.mem_singleton_self _
    | arguments hg hp hs hargs =>
      refine .inr ?_
      rw [if_neg (fun hb => hel.mp hb.2 (hg (hb.1.resolve_left hs))), if_neg (by simp [hp, hs]), if_neg fun e => hargs (hna.mp e)]
      exact List.mem_append_left _ (List.mem_singleton_self _)
    | content hs hset hm hp hargs hc hr =>
      refine .inr ?_
      rw [if_neg (fun hb => hb.1.elim hs hset), if_neg (by simp [hp, hs]), if_neg fun e => hargs (hna.mp e)]
      refine List.mem_append_right _ ?_
      rw [if_pos ⟨by simp [hm, hs, hset], hf.content.mpr hc, hre.mpr hr⟩]
      exact List.mem_singleton_self _

theorem name_ne (name s : String) (h : s ≠ "") : name ++ s ≠ name := by
  intro e
  have := congrArg String.length e
  rw [String.length_append] at this
  have : s.length = 0 := by omega
  exact h (String.length_eq_zero_iff.mp this)

theorem suffix_ne (name : String) {s t : String} (h : s ≠ t) : name ++ s ≠ name ++ t := by
  intro e
  exact h (String.append_right_inj name |>.mp e)

/-- No item is there twice, and of two for the same name the labels are different. -/
theorem labels_differ (around : Around) (math : Bool) (f : Feat) (name : String) (parens : Bool) :
    ((funcItems around math f name parens).map (·.label)).Nodup := by
  have h1 := name_ne name ".with" (by decide)
  have h2 := name_ne name ".where" (by decide)
  have h3 := name_ne name ".bracket" (by decide)
  have h4 : name ++ ".with" ≠ name ++ ".where" := suffix_ne name (by decide)
  have h5 : name ++ ".with" ≠ name ++ ".bracket" := suffix_ne name (by decide)
  have h6 : name ++ ".where" ≠ name ++ ".bracket" := suffix_ne name (by decide)
  unfold funcItems
  simp only
  split <;> split <;> (try split) <;> (try split) <;> (try split) <;> (try split) <;>
    simp_all [Ne.symm h3]

/-- In which order the functions are that a name stands for does not matter. -/
theorem any_order {cs ds : List Callable} (h : ∀ c, c ∈ cs ↔ c ∈ ds) (around : Around) (math bound parens : Bool) (name : String)
    (i : Item) : i ∈ funcItems around math (feat bound cs) name parens ↔ i ∈ funcItems around math (feat bound ds) name parens := by
  rw [items_iff_partial, items_iff_partial]
  have hs : ∀ {P : Callable → Prop}, (∃ c ∈ cs, P c) ↔ ∃ c ∈ ds, P c := by
    intro P
    exact ⟨fun ⟨c, hc, hp⟩ => ⟨c, (h c).mp hc, hp⟩, fun ⟨c, hc, hp⟩ => ⟨c, (h c).mpr hc, hp⟩⟩
  have ha : ∀ {P : Callable → Prop}, (∀ c ∈ cs, P c) ↔ ∀ c ∈ ds, P c := by
    intro P
    exact ⟨fun hp c hc => hp c ((h c).mpr hc), fun hp c hc => hp c ((h c).mp hc)⟩
  have e1 : NeedsPos cs ↔ NeedsPos ds := by unfold NeedsPos; rw [hs, ha]
  have e2 : NeedsNamed cs ↔ NeedsNamed ds := by unfold NeedsNamed; rw [hs, ha]
  have e3 : TakesMore cs ↔ TakesMore ds := hs
  have e4 : NextContent cs ↔ NextContent ds := hs
  have e5 : NoArguments bound cs ↔ NoArguments bound ds := by unfold NoArguments; rw [e1, hs, e3]
  have e6 : (∃ c ∈ cs, IsElement c) ↔ ∃ c ∈ ds, IsElement c := hs
  constructor
  · intro h
    cases h with
    | withArgs a b => exact .withArgs a (b.imp e1.mp e2.mp)
    | filtered a b => exact .filtered a (e6.mp b)
    | alone a b => exact .alone (fun x => e6.mp (a x)) b
    | called a b c d => exact .called (fun x => e6.mp (a x)) b c (e5.mp d)
    | arguments a b c d => exact .arguments (fun x => e6.mp (a x)) b c (fun x => d (e5.mpr x))
    | content a b c d e f g => exact .content a b c d (fun x => e (e5.mpr x)) (e4.mp f) (fun x => g (e3.mpr x))
  · intro h
    cases h with
    | withArgs a b => exact .withArgs a (b.imp e1.mpr e2.mpr)
    | filtered a b => exact .filtered a (e6.mpr b)
    | alone a b => exact .alone (fun x => e6.mpr (a x)) b
    | called a b c d => exact .called (fun x => e6.mpr (a x)) b c (e5.mpr d)
    | arguments a b c d => exact .arguments (fun x => e6.mpr (a x)) b c (fun x => d (e5.mp x))
    | content a b c d e f g => exact .content a b c d (fun x => e (e5.mp x)) (e4.mpr f) (fun x => g (e3.mp x))

/-- In selectors and set rules nothing is offered that is not an element. -/
theorem elements_only {around : Around} (ha : around = .selector ∨ around = .setRule) (math bound parens : Bool) {cs : List Callable}
    (hc : ∀ c ∈ cs, ¬ IsElement c) (name : String) : funcItems around math (feat bound cs) name parens = [] := by
  refine List.eq_nil_iff_forall_not_mem.mpr fun i h => ?_
  have hno : ¬ ∃ c ∈ cs, IsElement c := fun ⟨c, h1, h2⟩ => hc c h1 h2
  cases (items_iff_partial around math bound parens cs name i).mp h with
  | withArgs e _ => rcases ha with rfl | rfl <;> cases e
  | filtered _ g => exact hno g
  | alone g _ => exact hno (g ha)
  | called g _ e _ => exact hno (g (ha.resolve_left e))
  | arguments g _ e _ => exact hno (g (ha.resolve_left e))
  | content h1 h2 => exact ha.elim h1 h2

/-- A function to which all arguments were given by `with` is offered as if it had none. -/
theorem given_forgotten (s : Sig) (g : Nat) (name : String) (hs : s.positional ≠ []) :
    ⟨name, some (name ++ "(${})")⟩ ∈ funcItems .regular false (feat false [.func s g false false]) name true := by
  refine (items_iff_partial _ _ _ _ _ _ _).mpr (.arguments (nofun) rfl (nofun) ?_)
  rintro ⟨h | ⟨h, _⟩, _⟩
  · refine h ⟨⟨_, List.mem_singleton_self _, 0, s, .func⟩, ?_⟩
    intro c hc k s' hh
    rw [List.mem_singleton.mp hc] at hh
    cases hh
    exact List.length_pos_iff.mpr hs
  · cases h

/-- A method of content that takes something else is offered with brackets: the parameter that is looked at is `self`. -/
theorem method_bracket (b : Bool) (rest : List Bool) (named g : Nat) (name : String) :
    ⟨name ++ ".bracket", some (name ++ "[${}]")⟩ ∈
      funcItems .regular false (feat true [.func ⟨true :: b :: rest, named, false⟩ g false false]) name true := by
  have hp : NeedsPos [.func ⟨true :: b :: rest, named, false⟩ g false false] := by
    refine ⟨⟨_, List.mem_singleton_self _, 0, _, .func⟩, ?_⟩
    intro c hc k s' hh
    rw [List.mem_singleton.mp hc] at hh
    cases hh
    simp
  refine (items_iff_partial _ _ _ _ _ _ _).mpr (.content (nofun) (nofun) rfl rfl ?_ ?_ ?_)
  · rintro ⟨h | ⟨_, c, hc, h⟩, _⟩
    · exact h hp
    · rw [List.mem_singleton.mp hc] at h; cases h
  · exact ⟨_, List.mem_singleton_self _, 0, _, .func, rfl⟩
  · rintro ⟨c, hc, k, s', hh, ht⟩
    rw [List.mem_singleton.mp hc] at hh
    cases hh
    cases ht

/-- A name for two functions, of which only one takes no arguments, is offered as one that takes none. -/
theorem one_needs_arguments (s : Sig) (hs : s.rest = false) (name : String) :
    ⟨name, some (name ++ "()${}")⟩ ∈ funcItems .regular false (feat false [.closure ⟨[], 0, false⟩, .closure s]) name true := by
  refine (items_iff_partial _ _ _ _ _ _ _).mpr (.called (nofun) rfl (nofun) ⟨.inl ?_, ?_⟩)
  · rintro ⟨_, h⟩
    exact absurd (h _ List.mem_cons_self 0 _ .closure) (by simp)
  · rintro ⟨c, hc, k, s', hh, ht⟩
    simp only [List.mem_cons, List.not_mem_nil, or_false] at hc
    rcases hc with rfl | rfl
    · cases hh; cases ht
    · cases hh; rw [hs] at ht; cases ht

example : funcItems .showTransform false (feat false [.element ⟨[true], 2, false⟩]) "text" true =
    [⟨"text.with", some "text.with(${})"⟩, ⟨"text", some "text(${})"⟩, ⟨"text.bracket", some "text[${}]"⟩] := by decide +kernel

example : funcItems .selector false (feat false [.element ⟨[true], 2, false⟩]) "text" true =
    [⟨"text.where", some "text.where(${})"⟩, ⟨"text", none⟩] := by decide +kernel

/-! ## Parameters and fields -/

/-- In the parameters of a function, what its body takes from outside is offered, but neither its own name nor what a parameter binds. -/
theorem params_iff (name : Option String) (ps : List Param) (captures : List String) (c : String) :
    c ∈ paramItems name ps captures ↔ c ∈ captures ∧ name ≠ some c ∧ ∀ p ∈ ps, ¬ Binds p c := by
  simp only [paramItems, List.mem_filter, Bool.not_eq_true', ← Bool.not_eq_true, List.contains_iff_mem, List.mem_append, Option.mem_toList,
    List.mem_flatMap]
  have : ∀ p : Param, (c ∈ (match p with | .pos names => names | .named n => [n] | .spread sink => sink.toList)) ↔ Binds p c := by
    intro p
    cases p with
    | pos ns => exact ⟨.pos, fun h => by cases h; assumption⟩
    | named n =>
      constructor
      · intro h; rw [List.mem_singleton.mp h]; exact .named
      · intro h; cases h; exact List.mem_singleton_self _
    | spread o =>
      cases o with
      | none => exact ⟨nofun, nofun⟩
      | some n =>
        constructor
        · intro h; rw [List.mem_singleton.mp h]; exact .spread
        · intro h; cases h; exact List.mem_singleton_self _
  constructor
  · rintro ⟨h1, h2⟩
    exact ⟨h1, fun e => h2 (.inl e), fun p hp hb => h2 (.inr ⟨p, hp, (this p).mpr hb⟩)⟩
  · rintro ⟨h1, h2, h3⟩
    refine ⟨h1, ?_⟩
    rintro (h | ⟨p, hp, hb⟩)
    · exact h2 h
    · exact h3 p hp ((this p).mp hb)

example : paramItems (some "f") [.pos ["a", "b"], .named "c", .spread none] ["x", "a", "f", "c", "y"] = ["x", "y"] := by decide +kernel

theorem accessible_iff (t : Target) : t.accessible = true ↔ Chain t := by
  induction t with
  | field t ih => exact ih.trans ⟨.field, fun h => by cases h; assumption⟩
  | name => exact ⟨fun _ => .name, fun _ => rfl⟩
  | _ => exact ⟨nofun, nofun⟩

theorem punctuation_small : ∀ n : Fin 128, punctuation (Char.ofNat n) = true ↔
    Char.ofNat n ∈ "!\"#$%&'()*+,-./:;<=>?@[\\]^_`{|}~ \t\n\r\x0c".toList := by decide +kernel

theorem punctuation_iff (c : Char) : punctuation c = true ↔ Punctuation c := by
  by_cases h : c.toNat < 128
  · have := punctuation_small ⟨c.toNat, h⟩
    simp only [Char.ofNat_toNat] at this
    exact this
  · constructor
    · intro hp
      unfold punctuation at hp
      simp only [Bool.or_eq_true, Bool.and_eq_true, decide_eq_true_eq] at hp
      rcases hp with ((((((((hp | hp) | hp) | hp) | hp) | hp) | hp) | hp) | hp)
      all_goals first | omega | (subst hp; exact absurd (by decide) h)
    · intro hp
      refine absurd ?_ h
      have : ∀ x ∈ "!\"#$%&'()*+,-./:;<=>?@[\\]^_`{|}~ \t\n\r\x0c".toList, x.toNat < 128 := by decide +kernel
      exact this c hp

theorem postfixed_iff (t : Target) : t.postfixed = true ↔ ¬ BadText t := by
  cases t with
  | character c =>
    simp only [Target.postfixed, Bool.not_eq_true', ← Bool.not_eq_true, punctuation_iff]
    exact not_congr ⟨.character, fun h => by cases h; assumption⟩
  | text cs =>
    simp only [Target.postfixed, Bool.and_eq_true, Bool.not_eq_true', List.all_eq_true, ← Bool.not_eq_true, punctuation_iff,
      List.isEmpty_iff]
    constructor
    · rintro ⟨hne, hall⟩ hb
      cases hb with
      | text hc hp => exact hall _ hc hp
      | empty => exact hne rfl
    · intro hb
      exact ⟨fun e => hb (e ▸ .empty), fun c hc hp => hb (.text hc hp)⟩
  | _ => exact ⟨fun _ => nofun, fun _ => rfl⟩

theorem access_iff (math : Bool) (t : Target) : (!math || t.accessible) = true ↔ Accessible math t := by
  unfold Accessible
  rw [← accessible_iff]
  cases math <;> simp

theorem wrap_iff (math : Bool) (t : Target) : (!math || t.postfixed) = true ↔ Wrappable math t := by
  unfold Wrappable
  rw [← postfixed_iff]
  cases math <;> simp

/-- The types are asked just if the value is not known, or the text before the dot is in an equation and neither a name, with fields, nor
such that it may be wrapped. -/
theorem types_asked (math : Bool) (t : Target) (vs : List Value) :
    dotItems math t vs = none ↔ vs = [] ∨ ¬ Accessible math t ∧ ¬ Wrappable math t := by
  cases vs with
  | nil => simp [dotItems]
  | cons v vs =>
    rw [← access_iff, ← wrap_iff]
    simp only [dotItems, reduceCtorEq, false_or]
    cases (!math || t.accessible) <;> cases (!math || t.postfixed) <;> simp

/-- Names behind a dot: those of the specification for the first value that the text before it was found to have.
Missing: modifiers of symbols in equations where a dot accesses no field. -/
theorem names_iff_partial {math : Bool} {t : Target} {v : Value} {vs : List Value} {l : List DotItem} (h : dotItems math t (v :: vs) = some l)
    (n : String) : .name n ∈ l ↔ Named math t v n := by
  have ha := access_iff math t
  have hm : ∀ {ms : List Member}, (∃ m, (m ∈ ms ∧ (!(math && m.func)) = true) ∧ m.name = n) ↔
      ∃ m ∈ ms, (math = true → m.func = false) ∧ m.name = n := by
    intro ms
    constructor
    · rintro ⟨m, ⟨h1, h2⟩, h3⟩
      exact ⟨m, h1, fun e => by subst e; simpa using h2, h3⟩
    · rintro ⟨m, h1, h2, h3⟩
      refine ⟨m, ⟨h1, ?_⟩, h3⟩
      cases math with
      | false => rfl
      | true => simp [h2 rfl]
  simp only [dotItems] at h
  split at h
  · cases h
  · injection h with h
    subst h
    generalize (!math || t.postfixed) = p
    simp only [List.mem_append]
    cases hacc : (!math || t.accessible) with
    | true =>
      have hA : Accessible math t := ha.mp hacc
      simp only [if_true, List.mem_map, memberItems, List.mem_append, DotItem.name.injEq, exists_eq_right, List.mem_filter, hm]
      constructor
      · rintro ((((h | h) | h) | h) | h)
        · obtain ⟨m, h1, h2, rfl⟩ := h; exact .typeScope hA h1 h2
        · obtain ⟨m, h1, h2, rfl⟩ := h; exact .scope hA h1 h2
        · exact .field hA h
        · cases p <;> simp at h
        · cases ho : v.own with
          | symbol ms => rw [ho] at h; cases p <;> simp at h <;> exact .modifier ho h
          | content fs => rw [ho] at h; cases p <;> simp at h <;> exact .content hA ho h
          | dict es => rw [ho] at h; simp at h; exact .dict hA ho h
          | func ps => rw [ho] at h; simp at h; exact .param hA ho h
          | other => rw [ho] at h; cases h
      · intro h
        cases h with
        | typeScope _ h1 h2 => exact .inl (.inl (.inl (.inl ⟨_, h1, h2, rfl⟩)))
        | scope _ h1 h2 => exact .inl (.inl (.inl (.inr ⟨_, h1, h2, rfl⟩)))
        | field _ h => exact .inl (.inl (.inr h))
        | content _ ho h => refine .inr ?_; rw [ho]; simp [h]
        | dict _ ho h => refine .inr ?_; rw [ho]; simp [h]
        | param _ ho h => refine .inr ?_; rw [ho]; simp [h]
        | modifier ho h => refine .inr ?_; rw [ho]; simp [h]
    | false =>
      have hA : ¬ Accessible math t := fun hh => by rw [ha.mpr hh] at hacc; cases hacc
      simp only [Bool.false_eq_true, if_false, List.not_mem_nil, false_or]
      constructor
      · rintro (h | h)
        · cases p <;> simp at h
        · cases ho : v.own with
          | symbol ms => rw [ho] at h; cases p <;> simp at h <;> exact .modifier ho h
          | content fs => rw [ho] at h; cases p <;> simp at h
          | dict es => rw [ho] at h; cases h
          | func ps => rw [ho] at h; cases h
          | other => rw [ho] at h; cases h
      · intro h
        cases h with
        | modifier ho h => refine .inr ?_; rw [ho]; simp [h]
        | typeScope h => exact absurd h hA
        | scope h => exact absurd h hA
        | field h => exact absurd h hA
        | content h => exact absurd h hA
        | dict h => exact absurd h hA
        | param h => exact absurd h hA

/-- Snippets around the value are offered just if it may be wrapped, and functions to call on it if it is a symbol or content besides. -/
theorem wraps_iff {math : Bool} {t : Target} {v : Value} {vs : List Value} {l : List DotItem} (h : dotItems math t (v :: vs) = some l) :
    (.postfixes ∈ l ↔ Wrappable math t) ∧
    (.functions ∈ l ↔ Wrappable math t ∧ ((∃ ms, v.own = .symbol ms) ∨ ∃ fs, v.own = .content fs)) := by
  have ha := wrap_iff math t
  simp only [dotItems] at h
  split at h
  · cases h
  · injection h with h
    subst h
    generalize (!math || t.accessible) = a
    rw [← ha]
    generalize (!math || t.postfixed) = p
    cases v.own <;> cases a <;> cases p <;> simp

/-- Behind an arrow in an equation, say, which has no fields there, the modifiers of the symbol are offered all the same. -/
theorem modifiers_anyway (ms : List String) (n : String) (hn : n ∈ ms) (sc : List Member) (vs : List Value) :
    ¬ Accessible true .other ∧ ∃ l, dotItems true .other (⟨sc, [], [], .symbol ms⟩ :: vs) = some l ∧ .name n ∈ l := by
  refine ⟨fun h => (nomatch h rfl), ?_⟩
  refine ⟨_, rfl, ?_⟩
  simp [hn]

example : dotItems true (.field .name) [⟨[⟨"at", true⟩, ⟨"pi", false⟩], [], ["len"], .dict ["a", "b"]⟩] =
    some [.name "pi", .name "len", .postfixes, .name "a", .name "b"] := by decide +kernel

end Tinymist.TypeOffer
