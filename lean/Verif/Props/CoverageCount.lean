import Verif.Props.Coverage

/-!
# What the coverage report says of a run
-/

namespace Tinymist.Coverage

theorem run_append (s : Counters) (a b : List Op) :
    run s (a ++ b) = (run s a).bind (fun s' => run s' b) := by
  induction a generalizing s with
  | nil => rfl
  | cons o os ih =>
    rw [List.cons_append, run, run]
    cases step s o with
    | none => rfl
    | some s' => exact ih s'

theorem firstRead_append (h : List Op) (o : Op) (f : Nat) :
    firstRead (h ++ [o]) f = (firstRead h f).or (firstRead [o] f) := by
  induction h with
  | nil => rfl
  | cons x xs ih =>
    cases x with
    | hit g i => exact ih
    | source g n =>
      rw [List.cons_append, firstRead, firstRead]
      by_cases hg : g = f
      · rw [if_pos hg, if_pos hg]; rfl
      · rw [if_neg hg, if_neg hg]; exact ih

theorem times_append (h : List Op) (o : Op) (f i : Nat) :
    times (h ++ [o]) f i = times h f i + if o = .hit f i then 1 else 0 := by
  unfold times
  rw [List.count_append, List.count_singleton]
  simp

theorem fair_init {h : List Op} {o : Op} (hf : Fair (h ++ [o])) : Fair h := by
  intro pre f i post e
  exact hf pre f i (post ++ [o]) (by rw [e]; simp)

theorem lookup_insert (k v : Nat) (m : List (Nat × Nat)) (j : Nat) :
    (insert k v m).lookup j = if j = k then some v else m.lookup j := by
  unfold insert
  rw [List.lookup_cons]
  by_cases hj : j = k
  · subst hj; simp
  · have hb : (j == k) = false := by simpa using hj
    rw [if_neg hj, hb]
    induction m with
    | nil => rfl
    | cons e m ih =>
      obtain ⟨x, y⟩ := e
      rw [List.filter_cons]
      by_cases hx : x = k
      · have hjx : (j == x) = false := by simpa [hx] using hj
        rw [List.lookup_cons, hjx]
        simp only [hx, ne_eq, not_true_eq_false, decide_false]
        exact ih
      · simp only [hx, ne_eq, not_false_eq_true, decide_true, if_true]
        rw [List.lookup_cons, List.lookup_cons]
        cases j == x with
        | true => rfl
        | false => exact ih

theorem keys_insert {k v : Nat} {m : List (Nat × Nat)} (h : (m.map (·.1)).Nodup) :
    ((insert k v m).map (·.1)).Nodup := by
  unfold insert
  rw [List.map_cons, List.nodup_cons]
  constructor
  · simp
  · exact (List.filter_sublist.map _).nodup h

/-- What the counters hold after a history. -/
structure Holds (h : List Op) (s : Counters) : Prop where
  seen : ∀ f, f ∈ s.seen ↔ firstRead h f ≠ none
  read : ∀ f n, firstRead h f = some (some n) → s.sizes.lookup f = some n ∧
    ∃ a l, s.regions.lookup f = some a ∧ s.heap[a]? = some l ∧ l.length = n ∧
      ∀ i : Nat, i < n → l[i]? = some (min 255 (times h f i))
  unread : ∀ f, (∀ n, firstRead h f ≠ some (some n)) →
    s.regions.lookup f = none ∧ s.sizes.lookup f = none
  apart : ∀ f g a, s.regions.lookup f = some a → s.regions.lookup g = some a → f = g
  last : ∀ f a, s.lastHit = some (f, a) → s.regions.lookup f = some a
  keys : (s.regions.map (·.1)).Nodup

theorem holds_init : Holds [] Counters.init where
  seen f := by simp [Counters.init, firstRead]
  read f n h := by cases h
  unread f _ := ⟨rfl, rfl⟩
  apart f g a h := by cases h
  last f a h := by cases h
  keys := List.nodup_nil

/-- What was read before is what was read. -/
theorem firstRead_prefix {h t : List Op} {f : Nat} {x : Option Nat} (hx : firstRead h f = some x) :
    firstRead (h ++ t) f = some x := by
  induction h with
  | nil => cases hx
  | cons o os ih =>
    cases o with
    | hit g i => exact ih hx
    | source g n =>
      rw [firstRead] at hx
      rw [List.cons_append, firstRead]
      by_cases hg : g = f
      · rw [if_pos hg] at hx ⊢; exact hx
      · rw [if_neg hg] at hx ⊢; exact ih hx

theorem never_run {h : List Op} (hf : Fair h) {f i : Nat} (hn : firstRead h f = none) :
    times h f i = 0 := by
  unfold times
  rw [List.count_eq_zero]
  intro hm
  obtain ⟨pre, post, e⟩ := List.append_of_mem hm
  obtain ⟨n, h1, -⟩ := hf pre f i post e
  rw [e, firstRead_prefix h1] at hn
  cases hn

theorem Holds.bound {h : List Op} {s : Counters} (H : Holds h s) {f a : Nat}
    (hl : s.regions.lookup f = some a) : a < s.heap.length := by
  by_cases hr : ∃ n, firstRead h f = some (some n)
  · obtain ⟨n, hn⟩ := hr
    obtain ⟨-, a', l, h1, h2, -⟩ := H.read f n hn
    rw [hl] at h1
    injection h1 with h1
    subst h1
    rcases Nat.lt_or_ge a s.heap.length with h | h
    · exact h
    · rw [List.getElem?_eq_none h] at h2; cases h2
  · have := (H.unread f (fun n hn => hr ⟨n, hn⟩)).1
    rw [this] at hl; cases hl

theorem holds_source {h : List Op} {s : Counters} (hfair : Fair h) (H : Holds h s) (f : Nat) (n : Option Nat) :
    Holds (h ++ [.source f n]) (source s f n) := by
  have ht : ∀ g i, times (h ++ [.source f n]) g i = times h g i := by
    intro g i; rw [times_append]; simp
  have hr : ∀ g, firstRead (h ++ [.source f n]) g =
      (firstRead h g).or (if f = g then some n else none) := by
    intro g; rw [firstRead_append]; rfl
  unfold source
  by_cases hs : f ∈ s.seen
  · rw [if_pos hs]
    have hsame : ∀ g, firstRead (h ++ [.source f n]) g = firstRead h g := by
      intro g
      rw [hr]
      by_cases hg : f = g
      · subst hg
        have := (H.seen f).1 hs
        cases he : firstRead h f with
        | none => exact absurd he this
        | some x => rfl
      · rw [if_neg hg, Option.or_none]
    exact ⟨fun g => by rw [hsame]; exact H.seen g,
      fun g m hg => by
        rw [hsame] at hg
        obtain ⟨h1, a, l, h2, h3, h4, h5⟩ := H.read g m hg
        exact ⟨h1, a, l, h2, h3, h4, fun i hi => by rw [ht]; exact h5 i hi⟩,
      fun g hg => H.unread g (fun m hm => hg m (by rw [hsame]; exact hm)),
      H.apart, H.last, H.keys⟩
  · rw [if_neg hs]
    have hnone : firstRead h f = none := by
      cases he : firstRead h f with
      | none => rfl
      | some x => exact absurd ((H.seen f).2 (by rw [he]; simp)) hs
    have hf : firstRead (h ++ [.source f n]) f = some n := by rw [hr, hnone, if_pos rfl]; rfl
    have hne : ∀ g, g ≠ f → firstRead (h ++ [.source f n]) g = firstRead h g := by
      intro g hg
      rw [hr, if_neg (fun e => hg e.symm), Option.or_none]
    have hun := H.unread f (fun m hm => by rw [hnone] at hm; cases hm)
    have hseen : ∀ g, g ∈ f :: s.seen ↔ firstRead (h ++ [.source f n]) g ≠ none := by
      intro g
      by_cases hg : g = f
      · subst hg; rw [hf]; simp
      · rw [hne g hg, List.mem_cons, ← H.seen g]
        exact ⟨fun h => h.resolve_left hg, .inr⟩
    cases n with
    | none =>
      refine ⟨hseen, ?_, ?_, H.apart, H.last, H.keys⟩
      · intro g m hg
        by_cases hgf : g = f
        · subst hgf; rw [hf] at hg; cases hg
        · rw [hne g hgf] at hg
          obtain ⟨h1, a, l, h2, h3, h4, h5⟩ := H.read g m hg
          exact ⟨h1, a, l, h2, h3, h4, fun i hi => by rw [ht]; exact h5 i hi⟩
      · intro g hg
        by_cases hgf : g = f
        · subst hgf; exact hun
        · exact H.unread g (fun m hm => hg m (by rw [hne g hgf]; exact hm))
    | some k =>
      have hlk : ∀ g, (insert f s.heap.length s.regions).lookup g =
          if g = f then some s.heap.length else s.regions.lookup g := lookup_insert _ _ _
      have hls : ∀ g, (insert f k s.sizes).lookup g = if g = f then some k else s.sizes.lookup g :=
        lookup_insert _ _ _
      refine ⟨hseen, ?_, ?_, ?_, ?_, keys_insert H.keys⟩
      · intro g m hg
        show (insert f k s.sizes).lookup g = _ ∧ ∃ a l, (insert f s.heap.length s.regions).lookup g =
          some a ∧ (s.heap ++ [List.replicate k 0])[a]? = some l ∧ _
        rw [hlk, hls]
        by_cases hgf : g = f
        · subst hgf
          rw [hf] at hg
          injection hg with hg
          injection hg with hg
          subst hg
          rw [if_pos rfl, if_pos rfl]
          refine ⟨rfl, s.heap.length, List.replicate k 0, rfl, by simp, by simp, ?_⟩
          intro i hi
          rw [ht, never_run hfair hnone, List.getElem?_replicate, if_pos hi]
          rfl
        · rw [if_neg hgf, if_neg hgf]
          rw [hne g hgf] at hg
          obtain ⟨h1, a, l, h2, h3, h4, h5⟩ := H.read g m hg
          refine ⟨h1, a, l, h2, ?_, h4, fun i hi => by rw [ht]; exact h5 i hi⟩
          rw [List.getElem?_append_left (H.bound h2)]
          exact h3
      · intro g hg
        show (insert f s.heap.length s.regions).lookup g = none ∧ (insert f k s.sizes).lookup g = none
        rw [hlk, hls]
        by_cases hgf : g = f
        · subst hgf; exact absurd hf (hg k)
        · rw [if_neg hgf, if_neg hgf]
          exact H.unread g (fun m hm => hg m (by rw [hne g hgf]; exact hm))
      · intro g g' a h1 h2
        change (insert f s.heap.length s.regions).lookup g = _ at h1
        change (insert f s.heap.length s.regions).lookup g' = _ at h2
        rw [hlk] at h1 h2
        by_cases hg : g = f
        · by_cases hg' : g' = f
          · rw [hg, hg']
          · rw [if_pos hg] at h1
            rw [if_neg hg'] at h2
            injection h1 with h1
            have := H.bound h2
            omega
        · by_cases hg' : g' = f
          · rw [if_neg hg] at h1
            rw [if_pos hg'] at h2
            injection h2 with h2
            have := H.bound h1
            omega
          · rw [if_neg hg] at h1
            rw [if_neg hg'] at h2
            exact H.apart g g' a h1 h2
      · intro g a hg
        show (insert f s.heap.length s.regions).lookup g = some a
        have := H.last g a hg
        rw [hlk]
        by_cases hgf : g = f
        · subst hgf; rw [hun.1] at this; cases this
        · rw [if_neg hgf]; exact this

/-- What a counter call does when the file's region is at `a`. -/
theorem holds_hit {h : List Op} {s : Counters} (H : Holds h s) {f i n a : Nat} (hi : i < n)
    (hr : firstRead h f = some (some n)) (ha : s.regions.lookup f = some a)
    (last' : Option (Nat × Nat)) (hlast : last' = s.lastHit ∨ last' = some (f, a)) :
    ∃ s', hitRegion s a i = some s' ∧ Holds (h ++ [.hit f i]) { s' with lastHit := last' } := by
  obtain ⟨hsz, a', l, h2, h3, h4, h5⟩ := H.read f n hr
  rw [ha] at h2
  injection h2 with h2
  subst h2
  have hli := h5 i hi
  refine ⟨{ s with heap := s.heap.set a (l.set i (bump (min 255 (times h f i)))) }, ?_, ?_⟩
  · unfold hitRegion bumpAt
    rw [h3]
    simp only [hli]
  have hfr : ∀ g, firstRead (h ++ [.hit f i]) g = firstRead h g := by
    intro g; rw [firstRead_append]
    exact Option.or_none
  have halen := H.bound ha
  refine ⟨fun g => by rw [hfr]; exact H.seen g, ?_, ?_, H.apart, ?_, H.keys⟩
  · intro g m hg
    rw [hfr] at hg
    obtain ⟨h1, b, k, g2, g3, g4, g5⟩ := H.read g m hg
    refine ⟨h1, b, ?_⟩
    by_cases hba : b = a
    · have hgf : g = f := H.apart g f a (hba ▸ g2) ha
      subst hgf
      subst hba
      rw [h3] at g3
      injection g3 with g3
      subst g3
      refine ⟨l.set i (bump (min 255 (times h g i))), g2, ?_, ?_, ?_⟩
      · show (s.heap.set b _)[b]? = _
        rw [List.getElem?_set_self halen]
      · rw [List.length_set]; exact g4
      · intro j hj
        rw [times_append]
        by_cases hij : j = i
        · subst hij
          rw [List.getElem?_set_self (by omega), if_pos rfl]
          unfold bump
          congr 1
          split <;> omega
        · rw [List.getElem?_set_ne (fun e => hij e.symm), g5 j hj, if_neg]
          · rfl
          · intro e; injection e with _ e; exact hij e.symm
    · refine ⟨k, g2, ?_, g4, ?_⟩
      · show (s.heap.set a _)[b]? = _
        rw [List.getElem?_set_ne (fun e => hba e.symm)]
        exact g3
      · intro j hj
        rw [times_append, if_neg, g5 j hj]
        · rfl
        · intro e
          injection e with e1 e2
          subst e1
          rw [ha] at g2
          injection g2 with g2
          exact hba g2.symm
  · intro g hg
    exact H.unread g (fun m hm => hg m (by rw [hfr]; exact hm))
  · intro g b hg
    change last' = _ at hg
    rcases hlast with hl | hl
    · rw [hl] at hg; exact H.last g b hg
    · rw [hl] at hg
      injection hg with hg
      injection hg with e1 e2
      subst e1; subst e2
      exact ha

theorem holds_step {h : List Op} {s : Counters} (H : Holds h s) (o : Op)
    (hf : Fair (h ++ [o])) : ∃ s', step s o = some s' ∧ Holds (h ++ [o]) s' := by
  cases o with
  | source f n => exact ⟨_, rfl, holds_source (fair_init hf) H f n⟩
  | hit f i =>
    obtain ⟨n, hr, hi⟩ := hf h f i [] rfl
    obtain ⟨-, a, l, ha, -⟩ := H.read f n hr
    have slow : ∃ s', hitSlow s f i = some s' ∧ Holds (h ++ [.hit f i]) s' := by
      obtain ⟨s', h1, h2⟩ := holds_hit H hi hr ha (some (f, a)) (.inr rfl)
      refine ⟨_, ?_, h2⟩
      unfold hitSlow
      rw [ha]
      simp only [h1, Option.map_some]
    show ∃ s', hit s f i = some s' ∧ _
    unfold hit
    cases hl : s.lastHit with
    | none => exact slow
    | some e =>
      obtain ⟨g, b⟩ := e
      by_cases hg : g = f
      · simp only [if_pos hg]
        subst hg
        have hb := H.last g b hl
        obtain ⟨s', h1, h2⟩ := holds_hit H hi hr hb s.lastHit (.inl rfl)
        refine ⟨s', h1, ?_⟩
        have : s'.lastHit = s.lastHit := by
          unfold hitRegion at h1
          split at h1
          · cases h1
          · split at h1
            · cases h1
            · injection h1 with h1
              rw [← h1]
        rw [← this] at h2
        exact h2
      · simp only [if_neg hg]
        exact slow

theorem holds_run (h : List Op) (hf : Fair h) : ∃ s, run Counters.init h = some s ∧ Holds h s := by
  induction h using Util.reverseInd with
  | nil => exact ⟨_, rfl, holds_init⟩
  | append_singleton l o ih =>
    obtain ⟨s, h1, h2⟩ := ih (fair_init hf)
    obtain ⟨s', h3, h4⟩ := holds_step h2 o hf
    refine ⟨s', ?_, h4⟩
    rw [run_append, h1]
    show run s [o] = _
    rw [run, h3]
    rfl

/-- **No counter call panics, and every counter is right.** Whatever files are read and whatever
counter calls run, in any order and on any number of threads: the run does not panic, every file
read has one counter for each of its places, and the counter says how often its call ran, up to
255. -/
theorem counters_right (h : List Op) (hf : Fair h) : ∃ s, run Counters.init h = some s ∧
    ∀ f n, firstRead h f = some (some n) → ∃ a l, s.regions.lookup f = some a ∧
      s.heap[a]? = some l ∧ l.length = n ∧
      ∀ i : Nat, i < n → l[i]? = some (min 255 (times h f i)) := by
  obtain ⟨s, h1, h2⟩ := holds_run h hf
  exact ⟨s, h1, fun f n hr => (h2.read f n hr).2⟩

theorem details_from (range : Nat → Option (Nat × Nat)) (h : List Op) (f : Nat) (hits : List Nat)
    (places : List Nat) (k : Nat)
    (hh : ∀ i : Nat, i < k + places.length → hits[i]? = some (min 255 (times h f i))) :
    details range places hits k = some ((places.zipIdx k).filterMap
      (fun e => (range e.1).map (fun r => (decide (times h f e.2 > 0), r)))) := by
  induction places generalizing k with
  | nil => rfl
  | cons sp ps ih =>
    rw [details, List.zipIdx_cons, List.filterMap_cons]
    have ih' := ih (k + 1) (fun i hi => hh i (by simp at *; omega))
    cases range sp with
    | none => exact ih'
    | some r =>
      simp only [hh k (by simp), ih', Option.map_some]
      have : (min 255 (times h f k) > 0) = (times h f k > 0) := by
        apply propext; omega
      simp only [this]

/-- **The report says what ran.** For every file that was read, the report lists its places that
have a range, in order, each marked as run exactly if its counter call ran at least once. -/
theorem report_right (h : List Op) (hf : Fair h) (f : Nat) (places : List Nat)
    (range : Nat → Option (Nat × Nat)) (hr : firstRead h f = some (some places.length)) :
    ∃ s a l, run Counters.init h = some s ∧ s.regions.lookup f = some a ∧ s.heap[a]? = some l ∧
      details range places l 0 = some (expected range places h f) := by
  obtain ⟨s, h1, h2⟩ := counters_right h hf
  obtain ⟨a, l, h3, h4, h5, h6⟩ := h2 f _ hr
  exact ⟨s, a, l, h1, h3, h4, details_from range h f l places 0 (fun i hi => h6 i (by omega))⟩

theorem lookup_key {m : List (Nat × Nat)} {k : Nat} :
    k ∈ m.map (·.1) ↔ ∃ v, m.lookup k = some v := by
  induction m with
  | nil => simp
  | cons e m ih =>
    obtain ⟨x, y⟩ := e
    rw [List.map_cons, List.mem_cons, List.lookup_cons]
    by_cases hx : k = x
    · subst hx; simp
    · have : (k == x) = false := by simpa using hx
      rw [this, ih]
      simp [hx]

theorem countP_range {l : List Nat} {g : Nat → Nat} (n : Nat) (hn : l.length = n)
    (h : ∀ i : Nat, i < n → l[i]? = some (min 255 (g i))) :
    l.countP (fun c => decide (c > 0)) = (List.range n).countP (fun i => decide (g i > 0)) := by
  have e : l = (List.range n).map (fun i => min 255 (g i)) := by
    apply List.ext_getElem?
    intro i
    by_cases hi : i < n
    · rw [h i hi]
      simp [hi]
    · rw [List.getElem?_eq_none (by omega)]
      simp [hi]
  rw [e, List.countP_map]
  apply List.countP_congr
  intro i _
  simp only [Function.comp, decide_eq_true_eq]
  omega

/-- **The summary adds up.** The total is the number of places of all files that were read, each
file once, and the covered count is the number of those places whose counter call ran. -/
theorem summary_right (h : List Op) (hf : Fair h) (fs : List (Nat × Nat)) (hfs : filesRead h fs) :
    ∃ s, run Counters.init h = some s ∧
      summary s = ((fs.map (fun e => ran h e.1 e.2)).sum, (fs.map (·.2)).sum) := by
  obtain ⟨s, h1, H⟩ := holds_run h hf
  refine ⟨s, h1, ?_⟩
  have hval : ∀ f n, firstRead h f = some (some n) → fileSummary s f = some (ran h f n, n) := by
    intro f n hr
    obtain ⟨hs, a, l, g1, g2, g3, g4⟩ := H.read f n hr
    unfold fileSummary
    rw [g1, hs]
    simp only [g2, Option.map_some]
    rw [countP_range n g3 g4]
    rfl
  have hmem : ∀ f, f ∈ s.regions.map (·.1) ↔ f ∈ fs.map (·.1) := by
    intro f
    rw [lookup_key]
    constructor
    · rintro ⟨a, ha⟩
      by_cases hr : ∃ n, firstRead h f = some (some n)
      · obtain ⟨n, hn⟩ := hr
        exact List.mem_map.2 ⟨(f, n), (hfs.2 f n).2 hn, rfl⟩
      · rw [(H.unread f (fun n hn => hr ⟨n, hn⟩)).1] at ha
        cases ha
    · intro hm
      obtain ⟨⟨g, n⟩, hg, rfl⟩ := List.mem_map.1 hm
      obtain ⟨-, a, l, g1, -⟩ := H.read g n ((hfs.2 g n).1 hg)
      exact ⟨a, g1⟩
  have hperm : (s.regions.map (·.1)).Perm (fs.map (·.1)) :=
    (List.perm_ext_iff_of_nodup H.keys hfs.1).2 hmem
  have hp2 := hperm.filterMap (fileSummary s)
  have hval2 : (fs.map (·.1)).filterMap (fileSummary s) = fs.map (fun e => (ran h e.1 e.2, e.2)) := by
    rw [List.filterMap_map, ← List.filterMap_eq_map]
    have : ∀ l : List (Nat × Nat), (∀ e ∈ l, e ∈ fs) →
        l.filterMap (fileSummary s ∘ fun x => x.1) =
          l.filterMap (some ∘ fun e => (ran h e.1 e.2, e.2)) := by
      intro l hl
      induction l with
      | nil => rfl
      | cons e l ih =>
        have he : fileSummary s e.1 = some (ran h e.1 e.2, e.2) :=
          hval e.1 e.2 ((hfs.2 e.1 e.2).1 (hl e (by simp)))
        rw [List.filterMap_cons, List.filterMap_cons, ih (fun x hx => hl x (by simp [hx]))]
        simp only [Function.comp, he]
    exact this fs (fun _ h => h)
  rw [hval2] at hp2
  unfold summary
  simp only
  rw [(hp2.map (·.1)).sum_nat, (hp2.map (·.2)).sum_nat, List.map_map, List.map_map]
  rfl

/-- The hypotheses hold of a run over two files, one of which cannot be read. -/
example : ∃ h, Fair h ∧ filesRead h [(7, 2), (9, 1)] ∧ h.length = 7 ∧
    expected (fun sp => some (sp, sp + 1)) [3, 5] h 7 = [(false, (3, 4)), (true, (5, 6))] ∧
    ran h 7 2 = 1 ∧ ran h 9 1 = 1 := by
  refine ⟨[.source 7 (some 2), .hit 7 1, .source 8 none, .source 9 (some 1), .hit 9 0,
    .source 7 (some 5), .hit 7 1], ?_, ⟨by decide, ?_⟩, rfl, by decide, by decide, by decide⟩
  · intro pre f i post e
    match pre, e with
    | [], e => cases e
    | [_], e => injection e with e1 e; injection e with e; injection e with e2 e3; subst e1 e2 e3; exact ⟨2, rfl, by decide⟩
    | [_, _], e => injection e with _ e; injection e with _ e; injection e with e; cases e
    | [_, _, _], e => injection e with _ e; injection e with _ e; injection e with _ e; injection e with e; cases e
    | [_, _, _, _], e =>
      injection e with e1 e; injection e with e2 e; injection e with e3 e; injection e with e4 e
      injection e with e5 e; injection e5 with e5 e6
      subst e1 e2 e3 e4 e5 e6
      exact ⟨1, rfl, by decide⟩
    | [_, _, _, _, _], e =>
      injection e with _ e; injection e with _ e; injection e with _ e; injection e with _ e
      injection e with _ e; injection e with e; cases e
    | [_, _, _, _, _, _], e =>
      injection e with e1 e; injection e with e2 e; injection e with e3 e; injection e with e4 e
      injection e with e5 e; injection e with e6 e; injection e with e7 e; injection e7 with e7 e8
      subst e1 e2 e3 e4 e5 e6 e7 e8
      exact ⟨2, rfl, by decide⟩
    | _ :: _ :: _ :: _ :: _ :: _ :: _ :: p, e =>
      simp at e
  · intro f n
    simp only [firstRead, List.mem_cons, Prod.mk.injEq, List.not_mem_nil, or_false]
    by_cases h7 : 7 = f
    · subst h7; simp; exact eq_comm
    · by_cases h8 : 8 = f
      · subst h8; simp
      · by_cases h9 : 9 = f
        · subst h9; simp; exact eq_comm
        · simp [h7, h8, h9]
          exact ⟨fun e => absurd e.symm h7, fun e => absurd e.symm h9⟩

/-- A counter call of a file that was never read would panic: nothing has made room for it. -/
theorem unread_hit_panics (f i : Nat) : run Counters.init [.hit f i] = none := by
  simp [run, step, hit, hitSlow, Counters.init, hitRegion, bumpAt]

end Tinymist.Coverage
