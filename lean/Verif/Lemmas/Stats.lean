import Verif.Spec.Stats

/-!
# Lemmas about statistics
-/

namespace Tinymist.Stats

theorem filterMap_congr' {α β : Type} {f g : α → Option β} (l : List α) (h : ∀ a ∈ l, f a = g a) : l.filterMap f = l.filterMap g := by
  induction l with
  | nil => rfl
  | cons a l ih =>
    rw [List.filterMap_cons, List.filterMap_cons, h a List.mem_cons_self, ih fun b hb => h b (List.mem_cons_of_mem _ hb)]

/-! ## Histories -/

theorem startOf_append (h h' : List Event) (g : Nat) : startOf (h ++ h') g = (startOf h g).or (startOf h' g) := by
  unfold startOf; rw [List.findSome?_append]

theorem snapOf_append (h h' : List Event) (g : Nat) : snapOf (h ++ h') g = (snapOf h g).or (snapOf h' g) := by
  unfold snapOf; rw [List.findSome?_append]

theorem startOf_none {h : List Event} {g : Nat} : startOf h g = none ↔ ∀ k t, Event.start g k t ∉ h := by
  unfold startOf
  rw [List.findSome?_eq_none_iff]
  constructor
  · intro hn k t hm
    have := hn _ hm
    simp at this
  · intro hn e he
    cases e with
    | start g' k t =>
      by_cases hg : g' = g
      · subst hg; exact absurd he (hn k t)
      · simp [hg]
    | _ => rfl

theorem startOf_mem {h : List Event} {g : Nat} {k : Key} {t : Nat} (hs : startOf h g = some (k, t)) : Event.start g k t ∈ h := by
  unfold startOf at hs
  rw [List.findSome?_eq_some_iff] at hs
  obtain ⟨l₁, e, l₂, rfl, he, _⟩ := hs
  cases e with
  | start g' k' t' =>
    by_cases hg : g' = g
    · subst hg
      simp at he
      obtain ⟨rfl, rfl⟩ := he
      simp
    · simp [hg] at he
  | _ => simp at he

theorem snapOf_mem {h : List Event} {g t : Nat} (hs : snapOf h g = some t) : Event.snap g t ∈ h := by
  unfold snapOf at hs
  rw [List.findSome?_eq_some_iff] at hs
  obtain ⟨l₁, e, l₂, rfl, he, _⟩ := hs
  cases e with
  | snap g' t' =>
    by_cases hg : g' = g
    · subst hg
      simp at he
      subst he
      simp
    · simp [hg] at he
  | _ => simp at he

theorem snapOf_none {h : List Event} {g : Nat} : snapOf h g = none ↔ ∀ t, Event.snap g t ∉ h := by
  unfold snapOf
  rw [List.findSome?_eq_none_iff]
  constructor
  · intro hn t hm
    have := hn _ hm
    simp at this
  · intro hn e he
    cases e with
    | snap g' t =>
      by_cases hg : g' = g
      · subst hg; exact absurd he (hn t)
      · simp [hg]
    | _ => rfl

theorem proper_left {h h' : List Event} (hp : Proper (h ++ h')) : Proper h := by
  intro before e after he
  exact hp before e (after ++ h') (by rw [he]; simp)

theorem proper_started {h : List Event} (hp : Proper h) {e : Event} (he : e ∈ h) : startOf h e.who ≠ none := by
  obtain ⟨before, after, rfl⟩ := List.append_of_mem he
  have := hp before e after rfl
  intro hn
  rw [startOf_none] at hn
  cases e with
  | start g k t => exact hn k t (by simp [Event.who])
  | miss g => obtain ⟨⟨k, t, hm⟩, _⟩ := this; exact hn k t (List.mem_append_left _ hm)
  | snap g t' => obtain ⟨⟨k, t, hm⟩, _⟩ := this; exact hn k t (List.mem_append_left _ hm)
  | finish g t' => obtain ⟨⟨k, t, hm⟩, _⟩ := this; exact hn k t (List.mem_append_left _ hm)

theorem startOf_grow {h : List Event} (hp : Proper h) {e : Event} (he : e ∈ h) (h' : List Event) :
    startOf (h ++ h') e.who = startOf h e.who := by
  rw [startOf_append]
  have := proper_started hp he
  cases hs : startOf h e.who with
  | none => exact absurd hs this
  | some s => rfl

/-- Whether a query is finished. -/
def ended (h : List Event) (g : Nat) : Bool := h.any fun | .finish g' _ => g' == g | _ => false

theorem ended_iff {h : List Event} {g : Nat} : ended h g = true ↔ ∃ t, Event.finish g t ∈ h := by
  unfold ended
  rw [List.any_eq_true]
  constructor
  · rintro ⟨e, he, hx⟩
    cases e with
    | finish g' t => simp at hx; subst hx; exact ⟨t, he⟩
    | _ => simp at hx
  · rintro ⟨t, ht⟩
    exact ⟨_, ht, by simp⟩

/-- The guard of a query. -/
def guardOf (h : List Event) (g : Nat) : Option Guard :=
  if ended h g then none else (startOf h g).map fun s => ⟨s.1, s.2, (snapOf h g).map (· - s.2)⟩

/-- The row of a key. -/
def bucketOf (h : List Event) (k : Key) : Bucket :=
  ⟨(durations h k).length, (misses h k).length, (durations h k).sum, (waits h k).sum, (durations h k).foldl Nat.min never,
    (durations h k).foldl Nat.max 0⟩

/-- Whether a query of a key was started. -/
def used (h : List Event) (k : Key) : Bool := h.any fun | .start _ k' _ => k' == k | _ => false

theorem used_iff {h : List Event} {k : Key} : used h k = true ↔ ∃ g t, Event.start g k t ∈ h := by
  unfold used
  rw [List.any_eq_true]
  constructor
  · rintro ⟨e, he, hx⟩
    cases e with
    | start g k' t => simp at hx; subst hx; exact ⟨g, t, he⟩
    | _ => simp at hx
  · rintro ⟨g, t, ht⟩
    exact ⟨_, ht, by simp⟩

theorem used_append (h h' : List Event) (k : Key) : used (h ++ h') k = (used h k || used h' k) := by
  unfold used; rw [List.any_append]

theorem ended_append (h h' : List Event) (g : Nat) : ended (h ++ h') g = (ended h g || ended h' g) := by
  unfold ended; rw [List.any_append]

/-! ## Tables -/

theorem lookup_update (key : Key) (f : Bucket → Bucket) (table : List (Key × Bucket)) (k : Key) :
    (update key f table).lookup k = (table.lookup k).map fun b => if k = key then f b else b := by
  unfold update
  induction table with
  | nil => rfl
  | cons r rs ih =>
    obtain ⟨k', b⟩ := r
    rw [List.map_cons]
    by_cases h : k' = key
    · subst h
      simp only [if_true, List.lookup]
      by_cases hk : k = k'
      · subst hk; simp
      · have : (k == k') = false := by simpa using hk
        simp only [this]
        exact ih
    · simp only [h, if_false, List.lookup]
      by_cases hk : k = k'
      · subst hk; simp [h]
      · have : (k == k') = false := by simpa using hk
        simp only [this]
        exact ih

theorem keys_update (key : Key) (f : Bucket → Bucket) (table : List (Key × Bucket)) :
    (update key f table).map (·.1) = table.map (·.1) := by
  unfold update
  rw [List.map_map]
  apply List.map_congr_left
  intro r _
  simp only [Function.comp]
  split <;> rfl

theorem lookup_none {α β : Type} [BEq α] [LawfulBEq α] {l : List (α × β)} {a : α} : l.lookup a = none ↔ ∀ b, (a, b) ∉ l := by
  induction l with
  | nil => simp
  | cons x xs ih =>
    obtain ⟨x, y⟩ := x
    rw [List.lookup]
    by_cases h : a = x
    · subst h
      simp only [beq_self_eq_true]
      constructor
      · intro h; cases h
      · intro h; exact absurd List.mem_cons_self (h y)
    · have : (a == x) = false := by simpa using h
      simp only [this, ih]
      constructor
      · intro hn b hb
        rcases List.mem_cons.1 hb with he | hb
        · cases he; exact h rfl
        · exact hn b hb
      · intro hn b hb
        exact hn b (List.mem_cons_of_mem _ hb)

theorem lookup_append {α β : Type} [BEq α] (l l' : List (α × β)) (a : α) : (l ++ l').lookup a = (l.lookup a).or (l'.lookup a) := by
  induction l with
  | nil => rfl
  | cons x xs ih =>
    obtain ⟨x, y⟩ := x
    rw [List.cons_append, List.lookup, List.lookup]
    cases a == x with
    | true => rfl
    | false => exact ih

theorem any_key (key : Key) (table : List (Key × Bucket)) : (table.any fun r => r.1 == key) = (table.lookup key).isSome := by
  induction table with
  | nil => rfl
  | cons r rs ih =>
    obtain ⟨k', b⟩ := r
    rw [List.any_cons, List.lookup]
    by_cases h : key = k'
    · subst h; simp
    · have h1 : (key == k') = false := by simpa using h
      have h2 : (k' == key) = false := by simpa using fun e : k' = key => h e.symm
      simp only [h1, h2, Bool.false_or, ih]

theorem lookup_ensure (key : Key) (table : List (Key × Bucket)) (k : Key) :
    (ensure key table).lookup k = (table.lookup k).or (if k = key then some Bucket.new else none) := by
  unfold ensure
  rw [any_key]
  cases hl : table.lookup key with
  | some b =>
    simp only [Option.isSome_some, if_true]
    by_cases h : k = key
    · subst h; rw [hl]; rfl
    · simp [h]
  | none =>
    simp only [Option.isSome_none, Bool.false_eq_true, if_false, lookup_append, List.lookup]
    by_cases h : k = key
    · subst h; simp
    · have : (k == key) = false := by simpa using h
      simp [this, h]

theorem keys_ensure (key : Key) (table : List (Key × Bucket)) (hn : (table.map (·.1)).Nodup) : ((ensure key table).map (·.1)).Nodup := by
  unfold ensure
  rw [any_key]
  cases hl : table.lookup key with
  | some b => simpa using hn
  | none =>
    simp only [Option.isSome_none, Bool.false_eq_true, if_false, List.map_append, List.map_cons, List.map_nil]
    rw [List.nodup_append]
    refine ⟨hn, by simp, ?_⟩
    intro a ha b hb
    rw [List.mem_singleton] at hb
    subst hb
    rintro rfl
    obtain ⟨r, hr, rfl⟩ := List.mem_map.1 ha
    exact lookup_none.1 hl r.2 hr

theorem lookup_snap (g : Nat) (f : Guard → Guard) (gs : List (Nat × Guard)) (x : Nat) :
    (gs.map fun p => if p.1 = g then (p.1, f p.2) else p).lookup x = (gs.lookup x).map fun d => if x = g then f d else d := by
  induction gs with
  | nil => rfl
  | cons p ps ih =>
    obtain ⟨y, d⟩ := p
    rw [List.map_cons]
    by_cases h : y = g
    · subst h
      simp only [if_true, List.lookup]
      by_cases hk : x = y
      · subst hk; simp
      · have : (x == y) = false := by simpa using hk
        simp only [this]
        exact ih
    · simp only [h, if_false, List.lookup]
      by_cases hk : x = y
      · subst hk; simp [h]
      · have : (x == y) = false := by simpa using hk
        simp only [this]
        exact ih

theorem lookup_filter (g : Nat) (gs : List (Nat × Guard)) (x : Nat) :
    (gs.filter fun p => p.1 ≠ g).lookup x = if x = g then none else gs.lookup x := by
  induction gs with
  | nil => simp
  | cons p ps ih =>
    obtain ⟨y, d⟩ := p
    by_cases h : y = g
    · subst h
      rw [List.filter_cons_of_neg (by simp), ih, List.lookup]
      by_cases hk : x = y
      · simp [hk]
      · have : (x == y) = false := by simpa using hk
        simp [hk, this]
    · rw [List.filter_cons_of_pos (by simpa using h), List.lookup, List.lookup, ih]
      by_cases hk : x = y
      · subst hk; simp [h]
      · have : (x == y) = false := by simpa using hk
        simp [this]

/-! ## The server -/

structure Inv (h : List Event) (s : State) : Prop where
  guards : ∀ g, s.guards.lookup g = guardOf h g
  keys : (s.table.map (·.1)).Nodup
  table : ∀ k, s.table.lookup k = if used h k then some (bucketOf h k) else none

theorem durations_keep {h : List Event} (hp : Proper h) (e : Event) (k : Key) (he : ∀ g t, e ≠ .finish g t) :
    durations (h ++ [e]) k = durations h k := by
  unfold durations
  rw [List.filterMap_append]
  refine Eq.trans (congr (congrArg HAppend.hAppend ?_) (?_ : _ = [])) (List.append_nil _)
  · apply filterMap_congr'
    intro a ha
    cases a with
    | finish g t =>
      have := startOf_grow hp ha [e]
      simp only [Event.who] at this
      simp only [this]
    | _ => rfl
  · cases e with
    | finish g t => exact absurd rfl (he g t)
    | _ => rfl

theorem misses_keep {h : List Event} (hp : Proper h) (e : Event) (k : Key) (he : ∀ g, e ≠ .miss g) :
    misses (h ++ [e]) k = misses h k := by
  unfold misses
  rw [List.filterMap_append]
  refine Eq.trans (congr (congrArg HAppend.hAppend ?_) (?_ : _ = [])) (List.append_nil _)
  · apply filterMap_congr'
    intro a ha
    cases a with
    | miss g =>
      have := startOf_grow hp ha [e]
      simp only [Event.who] at this
      simp only [this]
    | _ => rfl
  · cases e with
    | miss g => exact absurd rfl (he g)
    | _ => rfl

theorem snapOf_keep (h : List Event) (e : Event) (g : Nat) (he : ∀ t, e ≠ .snap g t) : snapOf (h ++ [e]) g = snapOf h g := by
  rw [snapOf_append, show snapOf [e] g = none from snapOf_none.2 fun t ht => he t (List.mem_singleton.1 ht).symm, Option.or_none]

theorem startOf_keep (h : List Event) (e : Event) (g : Nat) (he : ∀ k t, e ≠ .start g k t) : startOf (h ++ [e]) g = startOf h g := by
  rw [startOf_append, show startOf [e] g = none from startOf_none.2 fun k t ht => he k t (List.mem_singleton.1 ht).symm, Option.or_none]

theorem waits_keep {h : List Event} (hp : Proper h) (e : Event) (k : Key) (he : ∀ g t, e ≠ .finish g t)
    (hs : ∀ g t, e = .snap g t → ∀ t', Event.finish g t' ∉ h) : waits (h ++ [e]) k = waits h k := by
  unfold waits
  rw [List.filterMap_append]
  refine Eq.trans (congr (congrArg HAppend.hAppend ?_) (?_ : _ = [])) (List.append_nil _)
  · apply filterMap_congr'
    intro a ha
    cases a with
    | finish g t =>
      have h1 := startOf_grow hp ha [e]
      simp only [Event.who] at h1
      have h2 := snapOf_keep h e g fun t' ht' => hs g t' ht' t ha
      simp only [h1, h2]
    | _ => rfl
  · cases e with
    | finish g t => exact absurd rfl (he g t)
    | _ => rfl

theorem durations_finish {h : List Event} (hp : Proper h) (g t : Nat) (k : Key) (s : Key × Nat) (hs : startOf h g = some s) :
    durations (h ++ [.finish g t]) k = durations h k ++ if s.1 = k then [t - s.2] else [] := by
  unfold durations
  rw [List.filterMap_append]
  congr 1
  · apply filterMap_congr'
    intro a ha
    cases a with
    | finish g' t' =>
      have h1 := startOf_grow hp ha [.finish g t]
      simp only [Event.who] at h1
      simp only [h1]
    | _ => rfl
  · have h1 := startOf_keep h (.finish g t) g (by intro k t' hx; cases hx)
    simp only [List.filterMap_cons, List.filterMap_nil, h1, hs, Option.bind_some]
    by_cases hk : s.1 = k <;> simp [hk]

theorem waits_finish {h : List Event} (hp : Proper h) (g t : Nat) (k : Key) (s : Key × Nat) (hs : startOf h g = some s) :
    waits (h ++ [.finish g t]) k = waits h k ++ if s.1 = k then [((snapOf h g).map (· - s.2)).getD 0] else [] := by
  unfold waits
  rw [List.filterMap_append]
  congr 1
  · apply filterMap_congr'
    intro a ha
    cases a with
    | finish g' t' =>
      have h1 := startOf_grow hp ha [.finish g t]
      simp only [Event.who] at h1
      have h2 := snapOf_keep h (.finish g t) g' (by intro t' hx; cases hx)
      simp only [h1, h2]
    | _ => rfl
  · have h1 := startOf_keep h (.finish g t) g (by intro k t' hx; cases hx)
    have h2 := snapOf_keep h (.finish g t) g (by intro t' hx; cases hx)
    simp only [List.filterMap_cons, List.filterMap_nil, h1, h2, hs, Option.bind_some]
    by_cases hk : s.1 = k <;> simp [hk]

theorem misses_miss {h : List Event} (hp : Proper h) (g : Nat) (k : Key) (s : Key × Nat) (hs : startOf h g = some s) :
    misses (h ++ [.miss g]) k = misses h k ++ if s.1 = k then [g] else [] := by
  unfold misses
  rw [List.filterMap_append]
  congr 1
  · apply filterMap_congr'
    intro a ha
    cases a with
    | miss g' =>
      have h1 := startOf_grow hp ha [.miss g]
      simp only [Event.who] at h1
      simp only [h1]
    | _ => rfl
  · have h1 := startOf_keep h (.miss g) g (by intro k t' hx; cases hx)
    simp only [List.filterMap_cons, List.filterMap_nil, h1, hs, Option.bind_some]
    by_cases hk : s.1 = k <;> simp [hk]

theorem bucket_unused {h : List Event} (k : Key) (hu : used h k = false) : bucketOf h k = Bucket.new := by
  have hk : ∀ g s, startOf h g = some s → s.1 ≠ k := by
    rintro g ⟨k', t⟩ hs rfl
    have : used h k' = true := used_iff.2 ⟨g, t, startOf_mem hs⟩
    rw [hu] at this; cases this
  have h1 : durations h k = [] := by
    unfold durations
    rw [List.filterMap_eq_nil_iff]
    intro e _
    cases e with
    | finish g t =>
      cases hs : startOf h g with
      | none => simp [hs]
      | some s => simp [hk g s hs, hs]
    | _ => rfl
  have h2 : waits h k = [] := by
    unfold waits
    rw [List.filterMap_eq_nil_iff]
    intro e _
    cases e with
    | finish g t =>
      cases hs : startOf h g with
      | none => simp [hs]
      | some s => simp [hk g s hs, hs]
    | _ => rfl
  have h3 : misses h k = [] := by
    unfold misses
    rw [List.filterMap_eq_nil_iff]
    intro e _
    cases e with
    | miss g =>
      cases hs : startOf h g with
      | none => simp [hs]
      | some s => simp [hk g s hs, hs]
    | _ => rfl
  simp [bucketOf, h1, h2, h3, Bucket.new]

theorem inv_step {h : List Event} {s : State} (e : Event) (hi : Inv h s) (hp : Proper (h ++ [e])) : Inv (h ++ [e]) (s.step e) := by
  have hp' := proper_left hp
  have he := hp h e [] rfl
  obtain ⟨hg, hn, ht⟩ := hi
  cases e with
  | start g key now =>
    simp only at he
    have hnone : startOf h g = none := startOf_none.2 fun k t hm => he _ hm rfl
    have hnend : ∀ x, ended (h ++ [.start g key now]) x = ended h x := by
      intro x; rw [ended_append]; simp [ended]
    refine ⟨?_, keys_ensure _ _ hn, ?_⟩
    · intro x
      simp only [State.step]
      rw [lookup_append, hg]
      unfold guardOf
      rw [hnend, snapOf_keep _ _ _ (by intro t hx; cases hx), startOf_append]
      by_cases hx : x = g
      · subst hx
        have hne : ended h x = false := by
          cases hb : ended h x with
          | false => rfl
          | true => obtain ⟨t, hm⟩ := ended_iff.1 hb; exact absurd rfl (he _ hm)
        have hns : snapOf h x = none := snapOf_none.2 fun t hm => he _ hm rfl
        have h1 : startOf [.start x key now] x = some (key, now) := by simp [startOf]
        simp [hne, hns, hnone, h1, List.lookup]
      · have h1 : (x == g) = false := by simpa using hx
        have h2 : startOf [.start g key now] x = none := startOf_none.2 fun k t hm => by
          rw [List.mem_singleton] at hm; cases hm; exact hx rfl
        rw [h2]
        simp [List.lookup, h1]
    · intro k
      simp only [State.step]
      rw [lookup_ensure, ht, used_append]
      have hb : bucketOf (h ++ [.start g key now]) k = bucketOf h k := by
        unfold bucketOf
        rw [durations_keep hp' _ _ (by intro g t hx; cases hx), misses_keep hp' _ _ (by intro g hx; cases hx),
          waits_keep hp' _ _ (by intro g t hx; cases hx) (by intro g t hx; cases hx)]
      rw [hb]
      cases hu : used h k with
      | true => rfl
      | false =>
        by_cases hk : k = key
        · subst hk
          simp [used, bucket_unused k hu]
        · have : (key == k) = false := by simpa using fun e : key = k => hk e.symm
          simp [used, hk, this]
  | miss g =>
    obtain ⟨⟨k0, t0, hm⟩, hf⟩ := he
    simp only [Event.who] at hm hf
    have hne : ended h g = false := by
      cases hb : ended h g with
      | false => rfl
      | true => obtain ⟨t, hm⟩ := ended_iff.1 hb; exact absurd hm (hf t)
    cases hs : startOf h g with
    | none => exact absurd hm (startOf_none.1 hs k0 t0)
    | some st =>
      have hl : s.guards.lookup g = some ⟨st.1, st.2, (snapOf h g).map (· - st.2)⟩ := by
        rw [hg, guardOf, hne, hs]; rfl
      have hstep : s.step (.miss g) = { s with table := update st.1 (fun b => { b with missing := b.missing + 1 }) s.table } := by
        simp only [State.step, hl]
      rw [hstep]
      refine ⟨?_, by simpa [keys_update] using hn, ?_⟩
      · intro x
        simp only
        rw [hg]
        unfold guardOf
        rw [ended_append, snapOf_keep _ _ _ (by intro t hx; cases hx), startOf_keep _ _ _ (by intro k t hx; cases hx)]
        simp [ended]
      · intro k
        simp only
        rw [lookup_update, ht, used_append]
        have hu' : used [.miss g] k = false := rfl
        rw [hu', Bool.or_false]
        have hb : bucketOf (h ++ [.miss g]) k =
            if k = st.1 then { bucketOf h k with missing := (bucketOf h k).missing + 1 } else bucketOf h k := by
          unfold bucketOf
          rw [durations_keep hp' _ _ (by intro g t hx; cases hx), misses_miss hp' g k st hs,
            waits_keep hp' _ _ (by intro g t hx; cases hx) (by intro g t hx; cases hx)]
          by_cases hk : k = st.1
          · simp [hk]
          · have : ¬ st.1 = k := fun e => hk e.symm
            simp [hk, this]
        rw [hb]
        cases used h k <;> simp
  | snap g now =>
    obtain ⟨⟨k0, t0, hm⟩, hf⟩ := he
    simp only [Event.who] at hm hf
    refine ⟨?_, hn, ?_⟩
    · intro x
      simp only [State.step]
      have := lookup_snap g (fun d => { d with snapSince := some (d.snapSince.getD (elapsed d.since now)) }) s.guards x
      rw [this, hg]
      unfold guardOf
      rw [ended_append, startOf_keep _ _ _ (by intro k t hx; cases hx), snapOf_append]
      have hen : ended [.snap g now] x = false := rfl
      rw [hen, Bool.or_false]
      cases hb : ended h x with
      | true => rfl
      | false =>
        simp only [Bool.false_eq_true, if_false]
        cases hs : startOf h x with
        | none => rfl
        | some st =>
          by_cases hx : x = g
          · subst hx
            cases hsn : snapOf h x <;> simp [snapOf, elapsed]
          · have h2 : snapOf [.snap g now] x = none := snapOf_none.2 fun t hm => by
              rw [List.mem_singleton] at hm; cases hm; exact hx rfl
            rw [h2]
            simp [hx]
    · intro k
      simp only [State.step]
      rw [ht, used_append]
      have hu' : used [.snap g now] k = false := rfl
      rw [hu', Bool.or_false]
      have hb : bucketOf (h ++ [.snap g now]) k = bucketOf h k := by
        unfold bucketOf
        rw [durations_keep hp' _ _ (by intro g t hx; cases hx), misses_keep hp' _ _ (by intro g hx; cases hx),
          waits_keep hp' _ _ (by intro g t hx; cases hx) (by intro g' t hx; cases hx; exact hf)]
      rw [hb]
  | finish g now =>
    obtain ⟨⟨k0, t0, hm⟩, hf⟩ := he
    simp only [Event.who] at hm hf
    have hne : ended h g = false := by
      cases hb : ended h g with
      | false => rfl
      | true => obtain ⟨t, hm⟩ := ended_iff.1 hb; exact absurd hm (hf t)
    cases hs : startOf h g with
    | none => exact absurd hm (startOf_none.1 hs k0 t0)
    | some st =>
      have hl : s.guards.lookup g = some ⟨st.1, st.2, (snapOf h g).map (· - st.2)⟩ := by
        rw [hg, guardOf, hne, hs]; rfl
      have hstep : s.step (.finish g now) = ⟨update st.1 (fun b => b.record (elapsed st.2 now) (((snapOf h g).map (· - st.2)).getD 0)) s.table,
          s.guards.filter fun p => p.1 ≠ g⟩ := by
        simp only [State.step, hl]
      rw [hstep]
      refine ⟨?_, by simpa [keys_update] using hn, ?_⟩
      · intro x
        simp only
        rw [lookup_filter, hg]
        unfold guardOf
        rw [ended_append, snapOf_keep _ _ _ (by intro t hx; cases hx), startOf_keep _ _ _ (by intro k t hx; cases hx)]
        by_cases hx : x = g
        · subst hx; simp [ended]
        · have : (g == x) = false := by simpa using fun e : g = x => hx e.symm
          simp [ended, hx, this]
      · intro k
        simp only
        rw [lookup_update, ht, used_append]
        have hu' : used [.finish g now] k = false := rfl
        rw [hu', Bool.or_false]
        have hb : bucketOf (h ++ [.finish g now]) k =
            if k = st.1 then (bucketOf h k).record (elapsed st.2 now) (((snapOf h g).map (· - st.2)).getD 0) else bucketOf h k := by
          unfold bucketOf
          rw [durations_finish hp' g now k st hs, misses_keep hp' _ _ (by intro g hx; cases hx), waits_finish hp' g now k st hs]
          by_cases hk : k = st.1
          · subst hk
            simp [Bucket.record, elapsed]
          · have : ¬ st.1 = k := fun e => hk e.symm
            simp [hk, this]
        rw [hb]
        cases used h k <;> simp

theorem inv_run {h : List Event} (hp : Proper h) : Inv h (run h) := by
  have key : ∀ (post pre : List Event) (s : State), Inv pre s → Proper (pre ++ post) → Inv (pre ++ post) (post.foldl State.step s) := by
    intro post
    induction post with
    | nil => intro pre s hi _; simpa using hi
    | cons e post ih =>
      intro pre s hi hp
      rw [List.foldl_cons]
      have := ih (pre ++ [e]) (s.step e) (inv_step e hi (proper_left (h' := post) (by simpa using hp))) (by simpa using hp)
      simpa using this
  have := key h [] ⟨[], []⟩ ⟨fun g => rfl, by simp, fun k => rfl⟩ (by simpa using hp)
  simpa [run] using this

/-! ## Least and most -/

theorem foldl_min_spec (l : List Nat) (a : Nat) :
    (l.foldl Nat.min a ≤ a ∧ ∀ d ∈ l, l.foldl Nat.min a ≤ d) ∧ (l.foldl Nat.min a = a ∨ l.foldl Nat.min a ∈ l) := by
  induction l generalizing a with
  | nil => simp
  | cons x xs ih =>
    rw [List.foldl_cons]
    obtain ⟨⟨h1, h2⟩, h3⟩ := ih (Nat.min a x)
    have ha : Nat.min a x ≤ a := Nat.min_le_left _ _
    have hx : Nat.min a x ≤ x := Nat.min_le_right _ _
    refine ⟨⟨by omega, ?_⟩, ?_⟩
    · intro d hd
      rcases List.mem_cons.1 hd with rfl | hd
      · omega
      · exact h2 d hd
    · rcases h3 with h3 | h3
      · rcases Nat.le_total a x with hle | hle
        · left; rw [h3]; exact Nat.min_eq_left hle
        · right; rw [h3, show Nat.min a x = x from Nat.min_eq_right hle]; simp
      · exact .inr (List.mem_cons_of_mem _ h3)

theorem foldl_max_spec (l : List Nat) (a : Nat) :
    (a ≤ l.foldl Nat.max a ∧ ∀ d ∈ l, d ≤ l.foldl Nat.max a) ∧ (l.foldl Nat.max a = a ∨ l.foldl Nat.max a ∈ l) := by
  induction l generalizing a with
  | nil => simp
  | cons x xs ih =>
    rw [List.foldl_cons]
    obtain ⟨⟨h1, h2⟩, h3⟩ := ih (Nat.max a x)
    have ha : a ≤ Nat.max a x := Nat.le_max_left _ _
    have hx : x ≤ Nat.max a x := Nat.le_max_right _ _
    refine ⟨⟨by omega, ?_⟩, ?_⟩
    · intro d hd
      rcases List.mem_cons.1 hd with rfl | hd
      · omega
      · exact h2 d hd
    · rcases h3 with h3 | h3
      · rcases Nat.le_total a x with hle | hle
        · right; rw [h3, show Nat.max a x = x from Nat.max_eq_right hle]; simp
        · left; rw [h3]; exact Nat.max_eq_left hle
      · exact .inr (List.mem_cons_of_mem _ h3)

end Tinymist.Stats
