import Verif.Spec.TypeOffer

/-! # Walking through the parts of a type -/

namespace Tinymist.TypeOffer

/-! ## The steps are what the specification says -/

/-- Items among steps. -/
def emits (l : List Step) : List Out := l.filterMap fun | .emit o => some o | _ => none

theorem emits_append (a b : List Step) : emits (a ++ b) = emits a ++ emits b := List.filterMap_append

theorem emits_sub (ts : List Ty) : emits (ts.map .sub) = [] := by
  simp [emits, List.filterMap_map]

theorem emits_once (ls : List Nat) : emits (ls.map fun l => .once (.label l)) = [] := by
  simp [emits, List.filterMap_map]

theorem emits_snippet (w : Where) (a b : String) : emits (snippet w a b) = if w.inText then [] else [.snippet a b] := by
  unfold snippet Where.passes
  cases w.inText <;> rfl

theorem steps_emits (w : Where) (t : Ty) : emits (steps w t) = Plain w.inText t := by
  cases t with
  | node h ts =>
    cases h with
    | union => exact emits_sub ts
    | bounds n => exact emits_sub ts
    | param n p named =>
      simp only [steps, emits_append, Plain]
      cases p <;> simp only [if_true, Bool.false_eq_true, if_false, emits_sub] <;> split <;> rfl
  | leaf l =>
    cases hw : w.inText with
    | true =>
      cases l with
      | builtin b => cases b <;> simp [steps, Where.passes, hw, Plain, builtinSteps, emits] <;>
          (rename_i t; cases t <;> simp)
      | value v d => cases v <;> simp [steps, Where.passes, hw, Plain, emits]
      | _ => simp [steps, Where.passes, hw, Plain, emits]
    | false =>
      cases l with
      | builtin b =>
        cases b with
        | typeType t => cases t <;>
            simp [steps, Where.passes, hw, Plain, builtinSteps, typeSteps, emits_append, emits_snippet, emits_once, Texts, NameTexts] <;>
            simp [emits, sub]
        | type t => cases t <;>
            simp [steps, Where.passes, hw, Plain, builtinSteps, typeSteps, emits_append, emits_snippet, emits_once, Texts, NameTexts] <;>
            simp [emits, sub]
        | _ => simp [steps, Where.passes, hw, Plain, builtinSteps, emits_append, emits_snippet, emits_once, Texts] <;> simp [emits, sub]
      | value v d => cases v <;> simp [steps, Where.passes, hw, Plain, emits, sub]
      | _ => simp [steps, Where.passes, hw, Plain, emits_append, emits_snippet] <;> simp [emits]

theorem mem_snippet {w : Where} {a b : String} {s : Step} (h : s ∈ snippet w a b) : ∃ o, s = .emit o := by
  unfold snippet at h
  split at h
  · exact ⟨_, by simpa using h⟩
  · cases h

theorem sub_snippet (w : Where) (a b : String) (t : Ty) : ¬ Step.sub t ∈ snippet w a b := by
  intro h; obtain ⟨o, h⟩ := mem_snippet h; cases h

theorem once_snippet (w : Where) (a b : String) (k : Key) : ¬ Step.once k ∈ snippet w a b := by
  intro h; obtain ⟨o, h⟩ := mem_snippet h; cases h

theorem steps_sub (w : Where) (t u : Ty) : .sub u ∈ steps w t ↔ Leads w.inText t u := by
  cases t with
  | node h ts =>
    cases h with
    | union =>
      simp only [steps, List.mem_map]
      constructor
      · rintro ⟨a, ha, e⟩; cases e; exact .union ha
      · rintro ⟨h⟩; exact ⟨u, by assumption, rfl⟩
    | bounds n =>
      simp only [steps, List.mem_map]
      constructor
      · rintro ⟨a, ha, e⟩; cases e; exact .bounds ha
      · intro h; cases h; exact ⟨u, by assumption, rfl⟩
    | param n p named =>
      simp only [steps, List.mem_append]
      constructor
      · rintro (h | h)
        · split at h
          · rename_i hp
            obtain ⟨a, ha, e⟩ := List.mem_map.mp h
            cases e
            subst hp
            exact .param ha
          · cases h
        · split at h
          · simp at h
          · cases h
      · intro h
        cases h
        exact .inl (List.mem_map.mpr ⟨u, by assumption, rfl⟩)
  | leaf l =>
    constructor
    · intro h
      cases hw : w.inText with
      | true =>
        exfalso
        cases l with
        | builtin b => cases b <;> simp [steps, Where.passes, hw, builtinSteps] at h
        | value v d => cases v <;> simp [steps, Where.passes, hw] at h
        | _ => simp [steps, Where.passes, hw] at h
      | false =>
        cases l with
        | builtin b =>
          cases b with
          | typeType n =>
            cases n <;> simp [steps, Where.passes, hw, builtinSteps, typeSteps, sub, sub_snippet] at h <;> subst h
            · exact .builtin rfl (.none (.inr rfl))
            · exact .builtin rfl (.auto (.inr rfl))
            · exact .builtin rfl (.color (.inr rfl))
          | type n =>
            cases n <;> simp [steps, Where.passes, hw, builtinSteps, typeSteps, sub, sub_snippet] at h <;> subst h
            · exact .builtin rfl (.none (.inl rfl))
            · exact .builtin rfl (.auto (.inl rfl))
            · exact .builtin rfl (.color (.inl rfl))
          | stroke =>
            simp [steps, Where.passes, hw, builtinSteps, sub, sub_snippet] at h
            rcases h with h | h <;> subst h
            · exact .builtin rfl .strokeColor
            · exact .builtin rfl .strokeLength
          | margin => simp [steps, Where.passes, hw, builtinSteps, sub, sub_snippet] at h; subst h; exact .builtin rfl .margin
          | inset => simp [steps, Where.passes, hw, builtinSteps, sub, sub_snippet] at h; subst h; exact .builtin rfl .inset
          | outset => simp [steps, Where.passes, hw, builtinSteps, sub, sub_snippet] at h; subst h; exact .builtin rfl .outset
          | radius => simp [steps, Where.passes, hw, builtinSteps, sub, sub_snippet] at h; subst h; exact .builtin rfl .radius
          | length => simp [steps, Where.passes, hw, builtinSteps, sub, sub_snippet] at h; subst h; exact .builtin rfl .length
          | _ => simp [steps, Where.passes, hw, builtinSteps, sub_snippet] at h
        | value v d =>
          cases v <;> simp [steps, Where.passes, hw, sub] at h <;> subst h
          · exact .type rfl
          · exact .none rfl
          · exact .auto rfl
        | _ => simp [steps, Where.passes, hw, sub_snippet] at h
    · intro h
      cases h with
      | builtin hw hi =>
        cases hi with
        | none h => rcases h with rfl | rfl <;> simp [steps, Where.passes, hw, builtinSteps, typeSteps, sub]
        | auto h => rcases h with rfl | rfl <;> simp [steps, Where.passes, hw, builtinSteps, typeSteps, sub]
        | color h => rcases h with rfl | rfl <;> simp [steps, Where.passes, hw, builtinSteps, typeSteps, sub]
        | _ => simp [steps, Where.passes, hw, builtinSteps, sub]
      | type hw => simp [steps, Where.passes, hw, sub]
      | none hw => simp [steps, Where.passes, hw, sub]
      | auto hw => simp [steps, Where.passes, hw, sub]

theorem mem_labels {ls : List Nat} {k : Key} : Step.once k ∈ ls.map (fun l => Step.once (.label l)) ↔ ∃ l ∈ ls, k = .label l := by
  simp only [List.mem_map, Step.once.injEq]
  constructor
  · rintro ⟨l, hl, e⟩; exact ⟨l, hl, e.symm⟩
  · rintro ⟨l, hl, e⟩; exact ⟨l, hl, e.symm⟩

theorem steps_once (w : Where) (t : Ty) (k : Key) : .once k ∈ steps w t ↔ Once w t k := by
  cases t with
  | node h ts =>
    cases h with
    | union =>
      simp only [steps, List.mem_map]
      constructor
      · rintro ⟨_, _, h⟩; cases h
      · intro h; cases h
    | bounds n =>
      simp only [steps, List.mem_map]
      constructor
      · rintro ⟨_, _, h⟩; cases h
      · intro h; cases h
    | param n p named =>
      simp only [steps, List.mem_append]
      constructor
      · rintro (h | h)
        · split at h
          · obtain ⟨_, _, h⟩ := List.mem_map.mp h; cases h
          · cases h
        · split at h
          · rename_i hc
            simp only [List.mem_singleton, Step.once.injEq] at h
            subst h
            simp only [Bool.and_eq_true, Bool.not_eq_true'] at hc
            obtain ⟨⟨rfl, hp⟩, hm⟩ := hc
            have hw : w.inText = false := by
              cases hw : w.inText with
              | false => rfl
              | true => simp [Where.passes, hw] at hp
            exact .field hw hm
          · cases h
      · intro h
        cases h with
        | field hw hm => exact .inr (by simp [Where.passes, hw, hm])
  | leaf l =>
    constructor
    · intro h
      cases hw : w.inText with
      | true =>
        cases l with
        | builtin b => cases b <;> simp [steps, Where.passes, hw, builtinSteps] at h
        | value v d =>
          cases v <;> simp [steps, Where.passes, hw] at h
          subst h
          exact .string
        | _ => simp [steps, Where.passes, hw] at h
      | false =>
        cases l with
        | builtin b =>
          cases b with
          | typeType n =>
            cases n <;> simp only [steps, Where.passes, hw, builtinSteps, typeSteps, Bool.false_eq_true, if_false, if_true, List.mem_append,
              once_snippet, or_self, sub, List.mem_singleton, mem_labels, List.not_mem_nil, reduceCtorEq, Step.once.injEq] at h
            · obtain ⟨l, hl, rfl⟩ := h; exact .label hw (.inr (.inr rfl)) hl
            · subst h; exact .constructor hw (.inr rfl)
          | type n =>
            cases n <;> simp only [steps, Where.passes, hw, builtinSteps, typeSteps, Bool.false_eq_true, if_false, if_true, List.mem_append,
              once_snippet, or_self, sub, List.mem_singleton, mem_labels, List.not_mem_nil, reduceCtorEq, Step.once.injEq] at h
            · obtain ⟨l, hl, rfl⟩ := h; exact .label hw (.inr (.inl rfl)) hl
            · subst h; exact .constructor hw (.inl rfl)
          | label =>
            simp only [steps, Where.passes, hw, builtinSteps, Bool.false_eq_true, if_false, if_true, mem_labels] at h
            obtain ⟨l, hl, rfl⟩ := h; exact .label hw (.inl rfl) hl
          | citeLabel =>
            simp only [steps, Where.passes, hw, builtinSteps, Bool.false_eq_true, if_false, if_true, mem_labels] at h
            obtain ⟨l, hl, rfl⟩ := h; exact .cite hw hl
          | refLabel =>
            simp only [steps, Where.passes, hw, builtinSteps, Bool.false_eq_true, if_false, if_true, mem_labels] at h
            obtain ⟨l, hl, rfl⟩ := h; exact .ref hw hl
          | element e =>
            simp [steps, Where.passes, hw, builtinSteps] at h
            subst h; exact .element hw
          | _ => simp [steps, Where.passes, hw, builtinSteps, once_snippet, sub] at h
        | value v d =>
          cases v <;> simp [steps, Where.passes, hw, sub] at h <;> subst h
          · exact .string
          · exact .value hw
        | _ => simp [steps, Where.passes, hw, once_snippet] at h
    · intro h
      cases h with
      | string => cases hw : w.inText <;> simp [steps, Where.passes, hw]
      | value hw => simp [steps, Where.passes, hw]
      | constructor hw h => rcases h with rfl | rfl <;> simp [steps, Where.passes, hw, builtinSteps, typeSteps]
      | element hw => simp [steps, Where.passes, hw, builtinSteps]
      | label hw h hl =>
        rcases h with rfl | rfl | rfl <;>
          simp only [steps, Where.passes, hw, builtinSteps, typeSteps, Bool.false_eq_true, if_false, if_true, mem_labels] <;>
          exact ⟨_, hl, rfl⟩
      | cite hw hl =>
        simp only [steps, Where.passes, hw, builtinSteps, Bool.false_eq_true, if_false, if_true, mem_labels]; exact ⟨_, hl, rfl⟩
      | ref hw hl =>
        simp only [steps, Where.passes, hw, builtinSteps, Bool.false_eq_true, if_false, if_true, mem_labels]; exact ⟨_, hl, rfl⟩

/-! ## Types get smaller -/

def leafRank : Leaf → Nat
  | .builtin .stroke | .builtin .margin | .builtin .inset | .builtin .outset | .builtin .radius => 3
  | .builtin .length | .builtin (.type _) | .builtin (.typeType _) => 2
  | .value _ _ => 3
  | _ => 1

mutual
def rank : Ty → Nat
  | .leaf l => leafRank l
  | .node _ ts => ranks ts + 1

def ranks : List Ty → Nat
  | [] => 0
  | t :: ts => Nat.max (rank t) (ranks ts)
end

theorem rank_pos (t : Ty) : 0 < rank t := by
  cases t with
  | leaf l => simp only [rank]; unfold leafRank; split <;> decide
  | node h ts => simp only [rank]; omega

theorem rank_mem : ∀ {ts : List Ty} {t : Ty}, t ∈ ts → rank t ≤ ranks ts
  | a :: ts, t, h => by
    simp only [ranks]
    rcases List.mem_cons.mp h with rfl | h
    · exact Nat.le_max_left _ _
    · exact Nat.le_trans (rank_mem h) (Nat.le_max_right _ _)

theorem leads_rank {b : Bool} {t u : Ty} (h : Leads b t u) : rank u < rank t := by
  cases h with
  | union h => simp only [rank]; have := rank_mem h; omega
  | bounds h => simp only [rank]; have := rank_mem h; omega
  | param h => simp only [rank]; have := rank_mem h; omega
  | builtin _ h =>
    cases h with
    | none h => rcases h with rfl | rfl <;> decide
    | auto h => rcases h with rfl | rfl <;> decide
    | color h => rcases h with rfl | rfl <;> decide
    | _ => decide
  | type _ => simp [rank, leafRank]
  | none _ => simp [rank, leafRank]
  | auto _ => simp [rank, leafRank]

mutual
theorem rank_depth : ∀ t : Ty, rank t ≤ depth t
  | .leaf l => by simp only [rank, depth]; unfold leafRank; split <;> decide
  | .node _ ts => by simp only [rank, depth]; exact Nat.succ_le_succ (ranks_depths ts)

theorem ranks_depths : ∀ ts : List Ty, ranks ts ≤ depths ts
  | [] => Nat.le_refl _
  | t :: ts => by
    simp only [ranks, depths]
    have h1 := rank_depth t
    have h2 := ranks_depths ts
    simp only [Nat.max_def]
    split <;> split <;> omega
end

/-! ## What a walk does -/

/-- From one state to another, `new` types and `kn` keys were met: starting with the types in `from'`, the items `extra` and the keys
`asked`. -/
structure Walked (w : Where) (roots : List Ty) (extra : List Out) (asked : List Key) (s s' : State) (new : List Ty) (kn : List Key) :
    Prop where
  seen : s'.seen = new ++ s.seen
  nodup : new.Nodup
  fresh : ∀ u ∈ new, u ∉ s.seen
  rooted : ∀ u ∈ roots, u ∈ s'.seen
  closed : ∀ u ∈ new, ∀ v, Leads w.inText u v → v ∈ s'.seen
  reached : ∀ u ∈ new, ∃ r ∈ roots, Met w.inText s.seen r u
  keys : s'.keys = kn ++ s.keys
  keyNodup : kn.Nodup
  keyFresh : ∀ k ∈ kn, k ∉ s.keys
  keyOf : ∀ k ∈ kn, k ∈ asked ∨ ∃ u ∈ new, Once w u k
  keyAll : ∀ k, (k ∈ asked ∨ ∃ u ∈ new, Once w u k) → k ∈ s'.keys
  out : ∃ o, s'.out = s.out ++ o ∧ o.Perm (extra ++ new.flatMap (Plain w.inText) ++ kn.map .once)

theorem Met.mono {b : Bool} {E F : List Ty} {t u : Ty} (h : ∀ x ∈ F, x ∈ E) (hm : Met b E t u) : Met b F t u := by
  induction hm with
  | here hn => exact .here fun hf => hn (h _ hf)
  | step _ hl hn ih => exact .step ih hl fun hf => hn (h _ hf)

theorem Met.trans {b : Bool} {E : List Ty} {t u v : Ty} (h : Met b E t u) (h' : Met b E u v) : Met b E t v := by
  induction h' with
  | here _ => exact h
  | step _ hl hn ih => exact .step ih hl hn

theorem Met.start {b : Bool} {E : List Ty} {t u : Ty} (h : Met b E t u) : t ∉ E := by
  induction h with
  | here h => exact h
  | step _ _ _ ih => exact ih

theorem Walked.refl (w : Where) (s : State) : Walked w [] [] [] s s [] [] where
  seen := rfl
  nodup := List.nodup_nil
  fresh := nofun
  rooted := nofun
  closed := nofun
  reached := nofun
  keys := rfl
  keyNodup := List.nodup_nil
  keyFresh := nofun
  keyOf := nofun
  keyAll := by rintro k (h | ⟨_, h, _⟩) <;> cases h
  out := ⟨[], by simp, by simp⟩

theorem Walked.trans {w : Where} {r1 r2 : List Ty} {e1 e2 : List Out} {a1 a2 : List Key} {s s1 s2 : State} {n1 n2 : List Ty}
    {k1 k2 : List Key} (h : Walked w r1 e1 a1 s s1 n1 k1) (h' : Walked w r2 e2 a2 s1 s2 n2 k2) :
    Walked w (r1 ++ r2) (e1 ++ e2) (a1 ++ a2) s s2 (n2 ++ n1) (k2 ++ k1) where
  seen := by rw [h'.seen, h.seen, List.append_assoc]
  nodup := by
    refine List.nodup_append.mpr ⟨h'.nodup, h.nodup, ?_⟩
    rintro a ha b hb rfl
    exact h'.fresh a ha (by rw [h.seen]; exact List.mem_append_left _ hb)
  fresh := by
    intro u hu
    rcases List.mem_append.mp hu with hu | hu
    · exact fun hs => h'.fresh u hu (by rw [h.seen]; exact List.mem_append_right _ hs)
    · exact h.fresh u hu
  rooted := by
    intro u hu
    rcases List.mem_append.mp hu with hu | hu
    · rw [h'.seen]; exact List.mem_append_right _ (h.rooted u hu)
    · exact h'.rooted u hu
  closed := by
    intro u hu v hv
    rcases List.mem_append.mp hu with hu | hu
    · exact h'.closed u hu v hv
    · rw [h'.seen]; exact List.mem_append_right _ (h.closed u hu v hv)
  reached := by
    intro u hu
    rcases List.mem_append.mp hu with hu | hu
    · obtain ⟨r, hr, hm⟩ := h'.reached u hu
      exact ⟨r, List.mem_append_right _ hr, hm.mono fun x hx => by rw [h.seen]; exact List.mem_append_right _ hx⟩
    · obtain ⟨r, hr, hm⟩ := h.reached u hu
      exact ⟨r, List.mem_append_left _ hr, hm⟩
  keys := by rw [h'.keys, h.keys, List.append_assoc]
  keyNodup := by
    refine List.nodup_append.mpr ⟨h'.keyNodup, h.keyNodup, ?_⟩
    rintro a ha b hb rfl
    exact h'.keyFresh a ha (by rw [h.keys]; exact List.mem_append_left _ hb)
  keyFresh := by
    intro k hk
    rcases List.mem_append.mp hk with hk | hk
    · exact fun hs => h'.keyFresh k hk (by rw [h.keys]; exact List.mem_append_right _ hs)
    · exact h.keyFresh k hk
  keyOf := by
    intro k hk
    rcases List.mem_append.mp hk with hk | hk
    · rcases h'.keyOf k hk with h1 | ⟨u, hu, ho⟩
      · exact .inl (List.mem_append_right _ h1)
      · exact .inr ⟨u, List.mem_append_left _ hu, ho⟩
    · rcases h.keyOf k hk with h1 | ⟨u, hu, ho⟩
      · exact .inl (List.mem_append_left _ h1)
      · exact .inr ⟨u, List.mem_append_right _ hu, ho⟩
  keyAll := by
    rintro k (hk | ⟨u, hu, ho⟩)
    · rcases List.mem_append.mp hk with hk | hk
      · rw [h'.keys]; exact List.mem_append_right _ (h.keyAll k (.inl hk))
      · exact h'.keyAll k (.inl hk)
    · rcases List.mem_append.mp hu with hu | hu
      · exact h'.keyAll k (.inr ⟨u, hu, ho⟩)
      · rw [h'.keys]; exact List.mem_append_right _ (h.keyAll k (.inr ⟨u, hu, ho⟩))
  out := by
    obtain ⟨o1, he1, hp1⟩ := h.out
    obtain ⟨o2, he2, hp2⟩ := h'.out
    refine ⟨o1 ++ o2, by rw [he2, he1, List.append_assoc], ?_⟩
    refine (hp1.append hp2).trans ?_
    classical
    refine List.perm_iff_count.mpr fun a => ?_
    simp only [List.count_append, List.flatMap_append, List.map_append]
    omega

theorem walked_emit (w : Where) (s : State) (o : Out) : Walked w [] [o] [] s { s with out := s.out ++ [o] } [] [] where
  seen := rfl
  nodup := List.nodup_nil
  fresh := nofun
  rooted := nofun
  closed := nofun
  reached := nofun
  keys := rfl
  keyNodup := List.nodup_nil
  keyFresh := nofun
  keyOf := nofun
  keyAll := by rintro k (h | ⟨_, h, _⟩) <;> cases h
  out := ⟨[o], by simp, by simp⟩

theorem walked_once (w : Where) (s : State) (k : Key) : ∃ kn, Walked w [] [] [k] s
    (if k ∈ s.keys then s else { s with keys := k :: s.keys, out := s.out ++ [.once k] }) [] kn := by
  by_cases hk : k ∈ s.keys
  · rw [if_pos hk]
    refine ⟨[], rfl, List.nodup_nil, nofun, nofun, nofun, nofun, rfl, List.nodup_nil, nofun, nofun, ?_, [], by simp, by simp⟩
    rintro k' (h | ⟨_, h, _⟩)
    · rw [List.mem_singleton.mp h]; exact hk
    · cases h
  · rw [if_neg hk]
    refine ⟨[k], rfl, List.nodup_nil, nofun, nofun, nofun, nofun, rfl, by simp, ?_, ?_, ?_, [.once k], by simp, by simp⟩
    · intro k' h; rw [List.mem_singleton.mp h]; exact hk
    · intro k' h; exact .inl h
    · rintro k' (h | ⟨_, h, _⟩)
      · rw [List.mem_singleton.mp h]; exact List.mem_cons_self
      · cases h

/-- Types among steps. -/
def subs (l : List Step) : List Ty := l.filterMap fun | .sub t => some t | _ => none

/-- Keys among steps. -/
def onces (l : List Step) : List Key := l.filterMap fun | .once k => some k | _ => none

theorem mem_subs {l : List Step} {t : Ty} : t ∈ subs l ↔ .sub t ∈ l := by
  simp only [subs, List.mem_filterMap]
  constructor
  · rintro ⟨s, hs, h⟩; cases s <;> cases h; exact hs
  · intro h; exact ⟨_, h, rfl⟩

theorem mem_onces {l : List Step} {k : Key} : k ∈ onces l ↔ .once k ∈ l := by
  simp only [onces, List.mem_filterMap]
  constructor
  · rintro ⟨s, hs, h⟩; cases s <;> cases h; exact hs
  · intro h; exact ⟨_, h, rfl⟩

theorem run_walked (w : Where) (fuel : Nat)
    (ih : ∀ t s, rank t ≤ fuel → ∃ new kn, Walked w [t] [] [] s (offer w fuel t s) new kn) : ∀ (l : List Step) (s : State),
    (∀ t, .sub t ∈ l → rank t ≤ fuel) → ∃ new kn, Walked w (subs l) (emits l) (onces l) s (run w fuel l s) new kn
  | [], s, _ => ⟨[], [], by simp only [run]; exact Walked.refl w s⟩
  | .emit o :: rest, s, h => by
    obtain ⟨new, kn, hw⟩ := run_walked w fuel ih rest { s with out := s.out ++ [o] } fun t ht => h t (List.mem_cons_of_mem _ ht)
    exact ⟨_, _, by simp only [run]; exact (walked_emit w s o).trans hw⟩
  | .once k :: rest, s, h => by
    obtain ⟨k1, h1⟩ := walked_once w s k
    obtain ⟨new, kn, hw⟩ := run_walked w fuel ih rest _ fun t ht => h t (List.mem_cons_of_mem _ ht)
    exact ⟨_, _, by simp only [run]; exact h1.trans hw⟩
  | .sub t :: rest, s, h => by
    obtain ⟨n1, k1, h1⟩ := ih t s (h t List.mem_cons_self)
    obtain ⟨new, kn, hw⟩ := run_walked w fuel ih rest _ fun t ht => h t (List.mem_cons_of_mem _ ht)
    exact ⟨_, _, by simp only [run]; exact h1.trans hw⟩

theorem offer_walked (w : Where) : ∀ (fuel : Nat) (t : Ty) (s : State), rank t ≤ fuel →
    ∃ new kn, Walked w [t] [] [] s (offer w fuel t s) new kn
  | 0, t, s, h => absurd h (by have := rank_pos t; omega)
  | fuel + 1, t, s, h => by
    simp only [offer]
    by_cases ht : t ∈ s.seen
    · rw [if_pos ht]
      exact ⟨[], [], rfl, List.nodup_nil, nofun, by intro u hu; rw [List.mem_singleton.mp hu]; exact ht, nofun, nofun, rfl,
        List.nodup_nil, nofun, nofun, (by rintro k (h | ⟨_, h, _⟩) <;> cases h), ⟨[], by simp, by simp⟩⟩
    · rw [if_neg ht]
      obtain ⟨new, kn, hw⟩ := run_walked w fuel (offer_walked w fuel) (steps w t) { s with seen := t :: s.seen } fun u hu => by
        have := leads_rank ((steps_sub w t u).mp hu); omega
      have hmem : ∀ x ∈ s.seen, x ∈ t :: s.seen := fun x hx => List.mem_cons_of_mem _ hx
      refine ⟨new ++ [t], kn, ?_, ?_, ?_, ?_, ?_, ?_, hw.keys, hw.keyNodup, hw.keyFresh, ?_, ?_, ?_⟩
      · rw [hw.seen]; simp
      · refine List.nodup_append.mpr ⟨hw.nodup, by simp, ?_⟩
        rintro a ha b hb rfl
        rw [List.mem_singleton.mp hb] at ha
        exact hw.fresh t ha List.mem_cons_self
      · intro u hu
        rcases List.mem_append.mp hu with hu | hu
        · exact fun hs => hw.fresh u hu (List.mem_cons_of_mem _ hs)
        · rw [List.mem_singleton.mp hu]; exact ht
      · intro u hu
        rw [List.mem_singleton.mp hu, hw.seen]
        exact List.mem_append_right _ List.mem_cons_self
      · intro u hu v hv
        rcases List.mem_append.mp hu with hu | hu
        · exact hw.closed u hu v hv
        · rw [List.mem_singleton.mp hu] at hv
          exact hw.rooted v (mem_subs.mpr ((steps_sub w t v).mpr hv))
      · intro u hu
        refine ⟨t, List.mem_singleton_self t, ?_⟩
        rcases List.mem_append.mp hu with hu | hu
        · obtain ⟨r, hr, hm⟩ := hw.reached u hu
          have hm := hm.mono hmem
          have hrn := hm.start
          exact Met.trans (.step (.here ht) ((steps_sub w t r).mp (mem_subs.mp hr)) hrn) hm
        · rw [List.mem_singleton.mp hu]; exact .here ht
      · intro k hk
        rcases hw.keyOf k hk with h1 | ⟨u, hu, ho⟩
        · exact .inr ⟨t, by simp, (steps_once w t k).mp (mem_onces.mp h1)⟩
        · exact .inr ⟨u, List.mem_append_left _ hu, ho⟩
      · rintro k (h1 | ⟨u, hu, ho⟩)
        · cases h1
        · rcases List.mem_append.mp hu with hu | hu
          · exact hw.keyAll k (.inr ⟨u, hu, ho⟩)
          · rw [List.mem_singleton.mp hu] at ho
            exact hw.keyAll k (.inl (mem_onces.mpr ((steps_once w t k).mpr ho)))
      · obtain ⟨o, he, hp⟩ := hw.out
        refine ⟨o, he, hp.trans ?_⟩
        rw [steps_emits]
        classical
        refine List.perm_iff_count.mpr fun a => ?_
        simp only [List.count_append, List.flatMap_append, List.flatMap_cons, List.flatMap_nil, List.append_nil, List.nil_append]
        omega

end Tinymist.TypeOffer
