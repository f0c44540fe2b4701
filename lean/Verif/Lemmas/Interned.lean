import Verif.Spec.Interned

/-!
# The invariant of interned objects
-/

namespace Tinymist.Interned

variable {V : Type} [DecidableEq V]

theorem lookup_cons' (v w : V) (a : Nat) (m : List (V × Nat)) :
    ((w, a) :: m).lookup v = if v = w then some a else m.lookup v := by
  rw [List.lookup_cons]
  by_cases h : v = w
  · subst h; simp
  · rw [if_neg h]
    have : (v == w) = false := by simpa using h
    simp only [this]

theorem lookup_filter (m : List (V × Nat)) (v w : V) :
    (m.filter fun e => e.1 ≠ w).lookup v = if v = w then none else m.lookup v := by
  induction m with
  | nil => simp
  | cons e m ih =>
    obtain ⟨x, a⟩ := e
    rw [lookup_cons']
    by_cases hx : x = w
    · subst hx
      rw [List.filter_cons_of_neg (by simp), ih]
      by_cases hv : v = x
      · rw [if_pos hv, if_pos hv]
      · rw [if_neg hv, if_neg hv, if_neg hv]
    · rw [List.filter_cons_of_pos (by simpa using hx), lookup_cons', ih]
      by_cases hv : v = x
      · subst hv
        rw [if_pos rfl, if_neg hx, if_pos rfl]
      · rw [if_neg hv, if_neg hv]

theorem lookup_none {m : List (V × Nat)} {w : V} (h : m.lookup w = none) : ∀ e ∈ m, e.1 ≠ w := by
  intro e he hew
  have := List.lookup_eq_none_iff.1 h e he
  rw [hew] at this
  simp at this

theorem filter_length {m : List (V × Nat)} {w : V} {a : Nat} (hm : (m.map Prod.fst).Nodup) (h : m.lookup w = some a) :
    m.length = (m.filter fun e => e.1 ≠ w).length + 1 := by
  induction m with
  | nil => cases h
  | cons e m ih =>
    obtain ⟨x, b⟩ := e
    rw [lookup_cons'] at h
    rw [List.map_cons, List.nodup_cons] at hm
    by_cases hx : w = x
    · subst hx
      rw [List.filter_cons_of_neg (by simp)]
      have : (m.filter fun e => e.1 ≠ w) = m := by
        apply List.filter_eq_self.2
        intro e he
        have : e.1 ≠ w := fun he' => hm.1 (List.mem_map.2 ⟨e, he, he'⟩)
        simpa using this
      rw [this]
      rfl
    · rw [if_neg hx] at h
      rw [List.filter_cons_of_pos (by simpa using fun h' : x = w => hx h'.symm)]
      rw [List.length_cons, List.length_cons, ih hm.2 h]

/-- The handles that have a reference to an object. -/
def owners (l : List (Handle V)) (a : Nat) : Nat := l.countP fun h => decide (h.phase ≠ .gone) && decide (h.addr = a)

omit [DecidableEq V] in
theorem owners_append (l : List (Handle V)) (h : Handle V) (a : Nat) :
    owners (l ++ [h]) a = owners l a + if h.phase ≠ .gone ∧ h.addr = a then 1 else 0 := by
  unfold owners
  rw [List.countP_append, List.countP_singleton]
  by_cases h1 : h.phase ≠ .gone <;> by_cases h2 : h.addr = a <;> simp [h1, h2]

omit [DecidableEq V] in
theorem owners_pos {l : List (Handle V)} {i : Nat} {h : Handle V} (hi : l[i]? = some h) (hp : h.phase ≠ .gone) :
    0 < owners l h.addr := by
  apply List.countP_pos_iff.2
  exact ⟨h, List.mem_of_getElem? hi, by simp [hp]⟩

omit [DecidableEq V] in
theorem owners_set {l : List (Handle V)} {i : Nat} {h : Handle V} (hi : l[i]? = some h) (hp : h.phase ≠ .gone) (p : Phase)
    (a : Nat) : owners (l.set i { h with phase := p }) a + (if h.addr = a then 1 else 0)
      = owners l a + if p ≠ .gone ∧ h.addr = a then 1 else 0 := by
  obtain ⟨hlt, hget⟩ := List.getElem?_eq_some_iff.1 hi
  unfold owners
  rw [List.countP_set hlt, hget]
  by_cases ha : h.addr = a
  · have hpos := owners_pos hi hp
    rw [ha] at hpos
    unfold owners at hpos
    by_cases h1 : p = .gone
    · simp only [ha, h1, ne_eq, not_true_eq_false, decide_false, decide_true, Bool.and_true, hp,
        not_false_eq_true, if_true, false_and, if_false, Bool.false_eq_true] at hpos ⊢
      omega
    · simp only [ha, h1, ne_eq, decide_true, Bool.and_true, hp, not_false_eq_true, if_true, and_self] at hpos ⊢
      omega
  · simp [ha]

omit [DecidableEq V] in
/-- With one owner there is no other one. -/
theorem owners_one {l : List (Handle V)} {i j : Nat} {h k : Handle V} (hi : l[i]? = some h) (hp : h.phase ≠ .gone)
    (hj : l[j]? = some k) (kp : k.phase ≠ .gone) (ha : k.addr = h.addr) (h1 : owners l h.addr = 1) : i = j := by
  by_cases hij : i = j
  · exact hij
  · exfalso
    have e := owners_set hi hp .gone h.addr
    simp at e
    have : (l.set i { h with phase := Phase.gone })[j]? = some k := by rw [List.getElem?_set_ne hij]; exact hj
    have := owners_pos this kp
    rw [ha] at this
    omega

/-- What holds between any two steps. -/
structure Inv (s : State V) : Prop where
  refs : ∀ a v n, s.mem a = some (v, n) → 0 < n ∧ n = owners s.handles a + if s.map.lookup v = some a then 1 else 0
  entry : ∀ v a, s.map.lookup v = some a → ∃ n, s.mem a = some (v, n)
  held : ∀ h ∈ s.handles, h.phase ≠ .gone → ∃ n, s.mem h.addr = some (h.value, n)
  found : ∀ h ∈ s.handles, h.phase = .live ∨ h.phase = .slow → s.map.lookup h.value = some h.addr
  nodup : (s.map.map Prod.fst).Nodup
  stats : s.inserted = s.removed + s.map.length
  calm : s.panicked = false
  sound : s.underflow = false

theorem inv_empty : Inv (State.empty : State V) where
  refs := fun _ _ _ h => by cases h
  entry := fun _ _ h => by cases h
  held := fun _ h => by cases h
  found := fun _ h => by cases h
  nodup := List.nodup_nil
  stats := rfl
  calm := rfl
  sound := rfl

/-- Another reference to an object in the map. -/
theorem inv_share {s : State V} (hs : Inv s) {v : V} {b : Nat} (hb : s.map.lookup v = some b) :
    Inv { s with mem := incr s.mem b, handles := s.handles ++ [⟨.live, b, v⟩] } := by
  obtain ⟨m, hm⟩ := hs.entry v b hb
  have key : ∀ a w n, s.mem a = some (w, n) → ∃ n', incr s.mem b a = some (w, n') := by
    intro a w n h
    unfold incr write
    by_cases hab : a = b
    · rw [if_pos hab, ← hab, h]; exact ⟨n + 1, rfl⟩
    · rw [if_neg hab]; exact ⟨n, h⟩
  refine ⟨?_, ?_, ?_, ?_, hs.nodup, hs.stats, hs.calm, hs.sound⟩
  · intro a w n h
    show 0 < n ∧ n = owners (s.handles ++ [⟨.live, b, v⟩]) a + _
    rw [owners_append]
    unfold incr write at h
    simp only at h
    by_cases hab : a = b
    · rw [if_pos hab, hm] at h
      have h' := Prod.mk.inj (Option.some.inj h)
      simp only at h'
      have := hs.refs b v m hm
      rw [← h'.1, ← h'.2, hab]
      rw [if_pos ⟨Phase.noConfusion, rfl⟩]
      rw [if_pos hb] at this
      show 0 < m + 1 ∧ m + 1 = owners s.handles b + 1 + if s.map.lookup v = some b then 1 else 0
      rw [if_pos hb]
      omega
    · rw [if_neg hab] at h
      have := hs.refs a w n h
      rw [if_neg (fun h' => hab h'.2.symm)]
      exact ⟨this.1, this.2⟩
  · intro w a h
    obtain ⟨n, hn⟩ := hs.entry w a h
    exact key a w n hn
  · intro h hh hp
    rcases List.mem_append.1 hh with hh | hh
    · obtain ⟨n, hn⟩ := hs.held h hh hp
      exact key _ _ n hn
    · rw [List.mem_singleton] at hh
      subst hh
      exact key _ _ m hm
  · intro h hh hp
    rcases List.mem_append.1 hh with hh | hh
    · exact hs.found h hh hp
    · rw [List.mem_singleton] at hh
      subst hh
      exact hb

theorem inv_insert {s : State V} (hs : Inv s) {v : V} {a : Nat} (hv : s.map.lookup v = none) (ha : s.mem a = none) :
    Inv { s with
        mem := write s.mem a (some (v, 2))
        map := (v, a) :: s.map
        handles := s.handles ++ [⟨.live, a, v⟩]
        inserted := s.inserted + 1 } := by
  have hne : ∀ b x, s.mem b = some x → b ≠ a := by
    intro b x h hb
    rw [hb, ha] at h
    cases h
  have key : ∀ b x, s.mem b = some x → write s.mem a (some (v, 2)) b = some x := by
    intro b x h
    unfold write
    rw [if_neg (hne b x h)]
    exact h
  have fresh : owners s.handles a = 0 := by
    unfold owners
    rw [List.countP_eq_zero]
    intro h hh hp
    simp only [Bool.and_eq_true, decide_eq_true_eq] at hp
    obtain ⟨n, hn⟩ := hs.held h hh hp.1
    exact hne _ _ hn hp.2
  have old : ∀ w b, s.map.lookup w = some b → ((v, a) :: s.map).lookup w = some b := by
    intro w b h
    rw [lookup_cons']
    by_cases hwv : w = v
    · rw [hwv, hv] at h; cases h
    · rw [if_neg hwv]; exact h
  refine ⟨?_, ?_, ?_, ?_, ?_, ?_, hs.calm, hs.sound⟩
  · intro b w n h
    show 0 < n ∧ n = owners (s.handles ++ [⟨.live, a, v⟩]) b + if ((v, a) :: s.map).lookup w = some b then 1 else 0
    rw [owners_append, lookup_cons']
    simp only [write] at h
    by_cases hab : b = a
    · rw [if_pos hab] at h
      have h' := Prod.mk.inj (Option.some.inj h)
      rw [hab, fresh, ← h'.1, ← h'.2, if_pos rfl]
      simp
    · rw [if_neg hab] at h
      have := hs.refs b w n h
      rw [if_neg (fun h' => hab h'.2.symm)]
      refine ⟨this.1, ?_⟩
      by_cases hwv : w = v
      · rw [if_pos hwv]
        rw [hwv, hv] at this
        rw [if_neg (fun h' => hab (Option.some.inj h').symm)]
        have := this.2
        simp at this
        omega
      · rw [if_neg hwv]
        exact this.2
  · intro w b h
    simp only [lookup_cons'] at h
    by_cases hwv : w = v
    · rw [if_pos hwv] at h
      have := Option.some.inj h
      refine ⟨2, ?_⟩
      simp only [write]
      rw [if_pos this.symm, hwv]
    · rw [if_neg hwv] at h
      obtain ⟨n, hn⟩ := hs.entry w b h
      exact ⟨n, key _ _ hn⟩
  · intro h hh hp
    rcases List.mem_append.1 hh with hh | hh
    · obtain ⟨n, hn⟩ := hs.held h hh hp
      exact ⟨n, key _ _ hn⟩
    · rw [List.mem_singleton] at hh
      subst hh
      exact ⟨2, by simp [write]⟩
  · intro h hh hp
    rcases List.mem_append.1 hh with hh | hh
    · exact old _ _ (hs.found h hh hp)
    · rw [List.mem_singleton] at hh
      subst hh
      show ((v, a) :: s.map).lookup v = some a
      rw [lookup_cons', if_pos rfl]
  · show (((v, a) :: s.map).map Prod.fst).Nodup
    rw [List.map_cons, List.nodup_cons]
    refine ⟨?_, hs.nodup⟩
    intro h
    obtain ⟨e, he, hev⟩ := List.mem_map.1 h
    exact lookup_none hv e he hev
  · show s.inserted + 1 = s.removed + ((v, a) :: s.map).length
    rw [List.length_cons]
    have := hs.stats
    omega

omit [DecidableEq V] in
theorem mem_set {l : List (Handle V)} {i : Nat} {h k : Handle V} (hk : k ∈ l.set i h) : k = h ∨ ∃ j, j ≠ i ∧ l[j]? = some k := by
  obtain ⟨j, hj⟩ := List.mem_iff_getElem?.1 hk
  by_cases hij : i = j
  · subst hij
    left
    rw [List.getElem?_set] at hj
    simp only [if_true] at hj
    split at hj
    · exact (Option.some.inj hj).symm
    · cases hj
  · rw [List.getElem?_set_ne hij] at hj
    exact .inr ⟨j, fun h => hij h.symm, hj⟩

/-- A handle in use, or being dropped, goes on without giving its reference back. -/
theorem inv_move {s : State V} (hs : Inv s) {i : Nat} {h : Handle V} (hi : s.handles[i]? = some h)
    (hp : h.phase = .live ∨ h.phase = .slow) {p : Phase} (pg : p ≠ .gone) : Inv (moveTo s i h p) := by
  have hng : h.phase ≠ .gone := by rcases hp with hp | hp <;> rw [hp] <;> decide
  have hmem := List.mem_of_getElem? hi
  refine ⟨?_, hs.entry, ?_, ?_, hs.nodup, hs.stats, hs.calm, hs.sound⟩
  · intro a v n hm
    show 0 < n ∧ n = owners (s.handles.set i { h with phase := p }) a + _
    have e := owners_set hi hng p a
    have := hs.refs a v n hm
    refine ⟨this.1, ?_⟩
    have h2 := this.2
    by_cases ha : h.addr = a
    · rw [if_pos ha, if_pos ⟨pg, ha⟩] at e
      show n = owners (s.handles.set i { h with phase := p }) a + if s.map.lookup v = some a then 1 else 0
      omega
    · rw [if_neg ha, if_neg (fun h => ha h.2)] at e
      show n = owners (s.handles.set i { h with phase := p }) a + if s.map.lookup v = some a then 1 else 0
      omega
  · intro k hk kp
    rcases mem_set hk with hk | ⟨j, _, hj⟩
    · subst hk
      exact hs.held h hmem hng
    · exact hs.held k (List.mem_of_getElem? hj) kp
  · intro k hk kp
    rcases mem_set hk with hk | ⟨j, _, hj⟩
    · subst hk
      exact hs.found h hmem hp
    · exact hs.found k (List.mem_of_getElem? hj) kp

/-- The entry of an object with one owner is removed. -/
theorem inv_remove {s : State V} (hs : Inv s) {i : Nat} {h : Handle V} (hi : s.handles[i]? = some h)
    (hp : h.phase = .slow) (hm : s.mem h.addr = some (h.value, 2)) (hl : s.map.lookup h.value = some h.addr) :
    Inv (moveTo { s with
                mem := decr s.mem h.addr
                map := s.map.filter fun e => e.1 ≠ h.value
                removed := s.removed + 1 } i h .releasing) := by
  have hng : h.phase ≠ .gone := by rw [hp]; decide
  have hr := hs.refs _ _ _ hm
  rw [if_pos hl] at hr
  have one : owners s.handles h.addr = 1 := by have := hr.2; omega
  have hset := owners_set hi hng .releasing
  have hmemA : decr s.mem h.addr h.addr = some (h.value, 1) := by
    unfold decr write
    rw [if_pos rfl, hm]
    rfl
  have hmemB : ∀ b, b ≠ h.addr → decr s.mem h.addr b = s.mem b := by
    intro b hb
    unfold decr write
    rw [if_neg hb]
  have other : ∀ w b, s.map.lookup w = some b → w ≠ h.value → b ≠ h.addr := by
    intro w b hw hwv hb
    obtain ⟨n, hn⟩ := hs.entry w b hw
    rw [hb, hm] at hn
    exact hwv (Prod.mk.inj (Option.some.inj hn)).1.symm
  refine ⟨?_, ?_, ?_, ?_, ?_, ?_, hs.calm, hs.sound⟩
  · intro b w n hb
    show 0 < n ∧ n = owners (s.handles.set i { h with phase := .releasing }) b
      + if (s.map.filter fun e => e.1 ≠ h.value).lookup w = some b then 1 else 0
    rw [lookup_filter]
    have hb : decr s.mem h.addr b = some (w, n) := hb
    have e := hset b
    by_cases hba : b = h.addr
    · rw [hba, hmemA] at hb
      have h' := Prod.mk.inj (Option.some.inj hb)
      rw [hba] at e ⊢
      rw [if_pos rfl, if_pos ⟨by decide, rfl⟩] at e
      rw [if_pos h'.1.symm, ← h'.2]
      simp only [reduceCtorEq, if_false]
      omega
    · rw [hmemB b hba] at hb
      have hr := hs.refs b w n hb
      rw [if_neg (fun h => hba h.symm), if_neg (fun h => hba h.2.symm)] at e
      refine ⟨hr.1, ?_⟩
      by_cases hw : w = h.value
      · rw [if_pos hw]
        rw [hw, hl, if_neg (fun h => hba (Option.some.inj h).symm)] at hr
        simp only [reduceCtorEq, if_false]
        have := hr.2
        omega
      · rw [if_neg hw]
        have := hr.2
        omega
  · intro w b hw
    have hw : (s.map.filter fun e => e.1 ≠ h.value).lookup w = some b := hw
    rw [lookup_filter] at hw
    by_cases hwv : w = h.value
    · rw [if_pos hwv] at hw; cases hw
    · rw [if_neg hwv] at hw
      obtain ⟨n, hn⟩ := hs.entry w b hw
      refine ⟨n, ?_⟩
      show decr s.mem h.addr b = _
      rw [hmemB b (other w b hw hwv)]
      exact hn
  · intro k hk kp
    show ∃ n, decr s.mem h.addr k.addr = some (k.value, n)
    rcases mem_set hk with hk | ⟨j, hj, hk⟩
    · subst hk
      exact ⟨1, hmemA⟩
    · obtain ⟨n, hn⟩ := hs.held k (List.mem_of_getElem? hk) kp
      by_cases hka : k.addr = h.addr
      · exact absurd (owners_one hi hng hk kp hka one).symm hj
      · exact ⟨n, by rw [hmemB _ hka]; exact hn⟩
  · intro k hk kp
    show (s.map.filter fun e => e.1 ≠ h.value).lookup k.value = some k.addr
    rcases mem_set hk with hk | ⟨j, hj, hk⟩
    · subst hk
      rcases kp with kp | kp <;> cases kp
    · have hf := hs.found k (List.mem_of_getElem? hk) kp
      have kng : k.phase ≠ .gone := by rcases kp with kp | kp <;> rw [kp] <;> decide
      rw [lookup_filter]
      by_cases hkv : k.value = h.value
      · rw [hkv, hl] at hf
        exact absurd (owners_one hi hng hk kng (Option.some.inj hf).symm one).symm hj
      · rw [if_neg hkv]; exact hf
  · show ((s.map.filter fun e => e.1 ≠ h.value).map Prod.fst).Nodup
    exact hs.nodup.sublist (List.filter_sublist.map _)
  · show s.inserted = s.removed + 1 + (s.map.filter fun e => e.1 ≠ h.value).length
    have := filter_length hs.nodup hl
    have := hs.stats
    omega

/-- A reference is given back. -/
theorem inv_release {s : State V} (hs : Inv s) {i : Nat} {h : Handle V} (hi : s.handles[i]? = some h)
    (hp : h.phase = .releasing) :
    Inv (moveTo { s with mem := decr s.mem h.addr, underflow := s.underflow || (s.mem h.addr).isNone } i h .gone) := by
  have hng : h.phase ≠ .gone := by rw [hp]; decide
  obtain ⟨m, hm⟩ := hs.held h (List.mem_of_getElem? hi) hng
  have hr := hs.refs _ _ _ hm
  have hset := owners_set hi hng .gone
  have hown := owners_pos hi hng
  have hmemB : ∀ b, b ≠ h.addr → decr s.mem h.addr b = s.mem b := by
    intro b hb
    unfold decr write
    rw [if_neg hb]
  have hmemA : decr s.mem h.addr h.addr = if m ≤ 1 then none else some (h.value, m - 1) := by
    unfold decr write
    rw [if_pos rfl, hm]
    rfl
  have big : ∀ v, s.map.lookup v = some h.addr → 1 < m := by
    intro v hv
    obtain ⟨n, hn⟩ := hs.entry v _ hv
    rw [hm] at hn
    rw [(Prod.mk.inj (Option.some.inj hn)).1, if_pos hv] at hr
    have := hr.2
    omega
  refine ⟨?_, ?_, ?_, ?_, hs.nodup, hs.stats, hs.calm, ?_⟩
  · intro b w n hb
    show 0 < n ∧ n = owners (s.handles.set i { h with phase := .gone }) b + if s.map.lookup w = some b then 1 else 0
    have hb : decr s.mem h.addr b = some (w, n) := hb
    have e := hset b
    rw [if_neg (c := Phase.gone ≠ Phase.gone ∧ h.addr = b) (fun h => h.1 rfl)] at e
    by_cases hba : b = h.addr
    · rw [hba, hmemA] at hb
      by_cases h1 : m ≤ 1
      · rw [if_pos h1] at hb; cases hb
      · rw [if_neg h1] at hb
        have h' := Prod.mk.inj (Option.some.inj hb)
        rw [hba] at e ⊢
        rw [if_pos rfl] at e
        rw [← h'.1, ← h'.2]
        have := hr.2
        constructor <;> omega
    · rw [hmemB b hba] at hb
      have hr := hs.refs b w n hb
      rw [if_neg (fun h => hba h.symm)] at e
      exact ⟨hr.1, by have := hr.2; omega⟩
  · intro v b hv
    show ∃ n, decr s.mem h.addr b = some (v, n)
    obtain ⟨n, hn⟩ := hs.entry v b hv
    by_cases hba : b = h.addr
    · have := big v (hba ▸ hv)
      rw [hba] at hn ⊢
      rw [hm] at hn
      rw [hmemA, if_neg (by omega), (Prod.mk.inj (Option.some.inj hn)).1]
      exact ⟨_, rfl⟩
    · exact ⟨n, by rw [hmemB b hba]; exact hn⟩
  · intro k hk kp
    show ∃ n, decr s.mem h.addr k.addr = some (k.value, n)
    rcases mem_set hk with hk | ⟨j, hj, hk⟩
    · subst hk
      exact absurd rfl kp
    · obtain ⟨n, hn⟩ := hs.held k (List.mem_of_getElem? hk) kp
      by_cases hka : k.addr = h.addr
      · rw [hka] at hn ⊢
        rw [hm] at hn
        have h' := Prod.mk.inj (Option.some.inj hn)
        have : 1 < m := by
          apply Classical.byContradiction
          intro hlt
          have := hr.2
          exact hj (owners_one hi hng hk kp hka (by omega)).symm
        rw [hmemA, if_neg (by omega), h'.1]
        exact ⟨_, rfl⟩
      · exact ⟨n, by rw [hmemB _ hka]; exact hn⟩
  · intro k hk kp
    show s.map.lookup k.value = some k.addr
    rcases mem_set hk with hk | ⟨j, hj, hk⟩
    · subst hk
      rcases kp with kp | kp <;> cases kp
    · exact hs.found k (List.mem_of_getElem? hk) kp
  · show (s.underflow || (s.mem h.addr).isNone) = false
    rw [hs.sound, hm]
    rfl

/-- What a handle in `drop_slow` meets under the lock. -/
theorem slow_found {s : State V} (hs : Inv s) {i : Nat} {h : Handle V} (hi : s.handles[i]? = some h) (hp : h.phase = .slow)
    (h2 : countOf s.mem h.addr = 2) : s.mem h.addr = some (h.value, 2) ∧ s.map.lookup h.value = some h.addr := by
  have hmem := List.mem_of_getElem? hi
  obtain ⟨n, hn⟩ := hs.held h hmem (by rw [hp]; decide)
  unfold countOf at h2
  rw [hn] at h2
  have h2 : n = 2 := h2
  exact ⟨h2 ▸ hn, hs.found h hmem (.inr hp)⟩

theorem inv_step {s : State V} (hs : Inv s) (o : Op V) : Inv (step s o) := by
  cases o with
  | intern v a =>
    simp only [step]
    cases hl : s.map.lookup v with
    | some b => exact inv_share hs hl
    | none =>
      by_cases ha : (s.mem a).isSome
      · rw [if_pos ha]; exact hs
      · rw [if_neg ha]
        exact inv_insert hs hl (by simpa using ha)
  | clone i =>
    simp only [step]
    cases hi : s.handles[i]? with
    | none => exact hs
    | some h =>
      simp only
      by_cases hp : h.phase = .live
      · rw [if_pos hp]
        exact inv_share hs (hs.found h (List.mem_of_getElem? hi) (.inl hp))
      · rw [if_neg hp]; exact hs
  | drop i =>
    simp only [step]
    cases hi : s.handles[i]? with
    | none => exact hs
    | some h =>
      simp only
      by_cases hp : h.phase = .live
      · rw [if_pos hp]
        by_cases h2 : countOf s.mem h.addr = 2
        · rw [if_pos h2]; exact inv_move hs hi (.inl hp) (by decide)
        · rw [if_neg h2]; exact inv_move hs hi (.inl hp) (by decide)
      · rw [if_neg hp]; exact hs
  | dropSlow i =>
    simp only [step]
    cases hi : s.handles[i]? with
    | none => exact hs
    | some h =>
      simp only
      by_cases hp : h.phase = .slow
      · rw [if_pos hp]
        by_cases h2 : countOf s.mem h.addr = 2
        · rw [if_neg (fun h => h h2)]
          obtain ⟨h3, h4⟩ := slow_found hs hi hp h2
          rw [h3]
          simp only
          rw [h4]
          exact inv_remove hs hi hp h3 h4
        · rw [if_pos h2]; exact inv_move hs hi (.inr hp) (by decide)
      · rw [if_neg hp]; exact hs
  | release i =>
    simp only [step]
    cases hi : s.handles[i]? with
    | none => exact hs
    | some h =>
      simp only
      by_cases hp : h.phase = .releasing
      · rw [if_pos hp]; exact inv_release hs hi hp
      · rw [if_neg hp]; exact hs

theorem inv_run (ops : List (Op V)) {s : State V} (hs : Inv s) : Inv (run ops s) := by
  induction ops generalizing s with
  | nil => exact hs
  | cons o ops ih => exact ih (inv_step hs o)

end Tinymist.Interned
