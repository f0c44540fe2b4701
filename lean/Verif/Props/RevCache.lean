import Verif.Lemmas.RevCache
/-!
# Analyses kept across revisions (C176)
-/

namespace Tinymist.RevCache
open Spec

variable {L : Lang}

/-- A slot that is kept or in use. -/
def Live (st : St) (s : Slot) : Prop := s ∈ st.slots ∨ ∃ l ∈ st.locks, ∃ w, l.ctx = some (s, w)

/-- What is kept is right. -/
structure Inv (L : Lang) (ws : List World) (st : St) : Prop where
  heap : ∀ a k v, st.cache.heap a k = some v → WF L k v
  global : ∀ e ∈ st.cache.global, WF L e.1 e.2.2
  right : ∀ s, Live st s → ∀ k v, st.cache.heap s.incr.next k = some v → Analysis L s.files k.1 k.2 v
  apart : ∀ s t, Live st s → Live st t → s.incr.next = t.incr.next → s.files = t.files
  bound : ∀ s, Live st s → s.incr.next < st.fresh
  dflt : st.dflt.next < st.fresh
  free : ∀ a k, st.fresh ≤ a → st.cache.heap a k = none
  empty : st.slots = [] → (∀ s, Live st s → s.incr.next ≠ st.dflt.next) ∧ ∀ k, st.cache.heap st.dflt.next k = none
  ctx : ∀ l ∈ st.locks, ∀ s w, l.ctx = some (s, w) → s.rev = w.rev ∧ s.files = w.files ∧ w ∈ ws
  hist : ∀ s ∈ st.slots, ∃ w ∈ ws, w.rev = s.rev ∧ w.files = s.files
  ids : st.locks.Pairwise fun a b => a.id ≠ b.id
  -- the revisions that are kept
  top : st.slots ≠ [] → ∃ s ∈ st.slots, s.rev = st.est
  below : ∀ s ∈ st.slots, s.rev ≤ st.est
  lock : ∀ l ∈ st.locks, l.est ≤ st.est
  warm : st.slots ≠ [] → ∀ l ∈ st.locks, l.ctx = none → ∃ s ∈ st.slots, s.rev = l.est
  cold : st.slots = [] → ∀ l ∈ st.locks, l.est = st.est
  alone : st.slots = [] → st.locks.length ≤ 1
  gcs : ∀ g ∈ st.gcs, g ≤ st.est ∧ ∀ l ∈ st.locks, l.ctx = none → g ≤ l.est

theorem inv_init (ws : List World) : Inv L ws init where
  heap := fun _ _ _ h => by cases h
  global := fun _ h => by cases h
  right := fun _ _ _ _ h => by cases h
  apart := by
    rintro s t (h | ⟨l, h, _⟩) _ _ <;> cases h
  bound := by
    rintro s (h | ⟨l, h, _⟩) <;> cases h
  dflt := by decide
  free := fun _ _ _ => rfl
  empty := fun _ => ⟨(by rintro s (h | ⟨l, h, _⟩) <;> cases h), fun _ => rfl⟩
  ctx := fun _ h => by cases h
  hist := fun _ h => by cases h
  ids := .nil
  top := fun h => absurd rfl h
  below := fun _ h => by cases h
  lock := fun _ h => by cases h
  warm := fun _ _ h => by cases h
  cold := fun _ _ h => by cases h
  alone := fun _ => Nat.zero_le _
  gcs := fun _ h => by cases h

theorem find_some {id : Nat} {locks : List Lock} {l : Lock} (h : find id locks = some l) : l ∈ locks ∧ l.id = id := by
  refine ⟨List.mem_of_find?_eq_some h, ?_⟩
  have := List.find?_some h
  exact of_decide_eq_true this

theorem find_none {id : Nat} {locks : List Lock} (h : find id locks = none) : ∀ l ∈ locks, l.id ≠ id := by
  intro l hl e
  have := List.find?_eq_none.mp h l hl
  simp [e] at this

theorem same_id {locks : List Lock} (h : locks.Pairwise fun a b => a.id ≠ b.id) {a b : Lock} (ha : a ∈ locks) (hb : b ∈ locks) (e : a.id = b.id) :
    a = b := by
  induction locks with
  | nil => cases ha
  | cons x l ih =>
    obtain ⟨h1, h2⟩ := List.pairwise_cons.mp h
    rcases List.mem_cons.mp ha with rfl | ha'
    · rcases List.mem_cons.mp hb with rfl | hb'
      · rfl
      · exact absurd e (h1 b hb')
    · rcases List.mem_cons.mp hb with rfl | hb'
      · exact absurd e.symm (h1 a ha')
      · exact ih h2 ha' hb'

theorem sweep_global (c : Cache) : ∀ e ∈ (sweep c).global, e ∈ c.global := fun _ h => (List.mem_filter.mp h).1

theorem inv_lock {ws : List World} {st : St} (h : Inv L ws st) (id : Nat) (ha : Allowed st (.lock id)) : Inv L ws (step L st (.lock id)).1 := by
  simp only [step]
  cases hf : find id st.locks with
  | some l => exact h
  | none =>
    have live : ∀ s, Live { st with locks := st.locks ++ [⟨id, st.est, none⟩] } s → Live st s := by
      rintro s (hs | ⟨l, hl, w, hw⟩)
      · exact .inl hs
      · rcases List.mem_append.mp hl with hl | hl
        · exact .inr ⟨l, hl, w, hw⟩
        · rw [List.mem_singleton.mp hl] at hw
          cases hw
    exact {
      heap := h.heap
      global := h.global
      right := fun s hs => h.right s (live s hs)
      apart := fun s t hs ht => h.apart s t (live s hs) (live t ht)
      bound := fun s hs => h.bound s (live s hs)
      dflt := h.dflt
      free := h.free
      empty := fun he => ⟨fun s hs => (h.empty he).1 s (live s hs), (h.empty he).2⟩
      ctx := by
        intro l hl s w hw
        rcases List.mem_append.mp hl with hl | hl
        · exact h.ctx l hl s w hw
        · rw [List.mem_singleton.mp hl] at hw
          cases hw
      hist := h.hist
      ids := by
        rw [List.pairwise_append]
        refine ⟨h.ids, List.pairwise_singleton .., ?_⟩
        intro a haa b hb
        rw [List.mem_singleton.mp hb]
        exact find_none hf a haa
      top := h.top
      below := h.below
      lock := by
        intro l hl
        rcases List.mem_append.mp hl with hl | hl
        · exact h.lock l hl
        · rw [List.mem_singleton.mp hl]
          exact Nat.le_refl _
      warm := by
        intro hs l hl hc
        rcases List.mem_append.mp hl with hl | hl
        · exact h.warm hs l hl hc
        · rw [List.mem_singleton.mp hl]
          exact h.top hs
      cold := by
        intro hs l hl
        rcases List.mem_append.mp hl with hl | hl
        · exact h.cold hs l hl
        · rw [List.mem_singleton.mp hl]
      alone := by
        intro hs
        have : st.locks = [] := ha hs
        simp [this]
      gcs := by
        intro g hg
        refine ⟨(h.gcs g hg).1, ?_⟩
        intro l hl hc
        rcases List.mem_append.mp hl with hl | hl
        · exact (h.gcs g hg).2 l hl hc
        · rw [List.mem_singleton.mp hl]
          exact (h.gcs g hg).1 }

theorem inv_drop {ws : List World} {st : St} (h : Inv L ws st) (id : Nat) : Inv L ws (step L st (.drop id)).1 := by
  simp only [step]
  cases hf : find id st.locks with
  | none => exact h
  | some l0 =>
    obtain ⟨hl0, _⟩ := find_some hf
    have sub : ∀ l, l ∈ st.locks.filter (·.id ≠ id) → l ∈ st.locks := fun l hl => (List.mem_filter.mp hl).1
    have live : ∀ s, Live { st with locks := st.locks.filter (·.id ≠ id), gcs := st.gcs ++ (unlock st.slots l0.est (st.locks.filter (·.id ≠ id))).toList } s → Live st s := by
      rintro s (hs | ⟨l, hl, w, hw⟩)
      · exact .inl hs
      · exact .inr ⟨l, sub l hl, w, hw⟩
    exact {
      heap := h.heap
      global := h.global
      right := fun s hs => h.right s (live s hs)
      apart := fun s t hs ht => h.apart s t (live s hs) (live t ht)
      bound := fun s hs => h.bound s (live s hs)
      dflt := h.dflt
      free := h.free
      empty := fun he => ⟨fun s hs => (h.empty he).1 s (live s hs), (h.empty he).2⟩
      ctx := fun l hl => h.ctx l (sub l hl)
      hist := h.hist
      ids := h.ids.filter _
      top := h.top
      below := h.below
      lock := fun l hl => h.lock l (sub l hl)
      warm := fun hs l hl => h.warm hs l (sub l hl)
      cold := fun hs l hl => h.cold hs l (sub l hl)
      alone := fun hs => Nat.le_trans (List.length_filter_le ..) (h.alone hs)
      gcs := by
        intro g hg
        rcases List.mem_append.mp hg with hg | hg
        · exact ⟨(h.gcs g hg).1, fun l hl => (h.gcs g hg).2 l (sub l hl)⟩
        · rw [Option.mem_toList] at hg
          have hg : unlock st.slots l0.est (st.locks.filter (·.id ≠ id)) = some g := hg
          unfold unlock at hg
          split at hg
          · cases hg
          split at hg
          · rename_i e he
            cases hg
            obtain ⟨h1, h2⟩ := least_spec he
            obtain ⟨l, hl, rfl⟩ := List.mem_map.mp h1
            refine ⟨h.lock l (sub l hl), ?_⟩
            intro l' hl' _
            exact h2 _ (List.mem_map_of_mem hl')
          · rename_i he
            obtain ⟨h1, _⟩ := greatest_spec hg
            obtain ⟨s, hs, rfl⟩ := List.mem_map.mp h1
            refine ⟨h.below s hs, ?_⟩
            intro l hl _
            have : st.locks.filter (·.id ≠ id) = [] := by
              cases hx : st.locks.filter (·.id ≠ id) with
              | nil => rfl
              | cons a b => rw [hx] at he; cases he
            rw [this] at hl
            cases hl }

theorem inv_gc {ws : List World} {st : St} (h : Inv L ws st) (i : Nat) : Inv L ws (step L st (.gc i)).1 := by
  simp only [step]
  cases hg : st.gcs[i]? with
  | none => exact h
  | some g =>
    obtain ⟨g1, g2⟩ := h.gcs g (List.mem_of_getElem? hg)
    have keep : st.slots ≠ [] → ∃ s ∈ st.slots.filter (g ≤ ·.rev), s.rev = st.est := by
      intro hs
      obtain ⟨s, hs, he⟩ := h.top hs
      exact ⟨s, List.mem_filter.mpr ⟨hs, decide_eq_true (he ▸ g1)⟩, he⟩
    have nonempty : st.slots.filter (g ≤ ·.rev) = [] → st.slots = [] := by
      intro he
      cases hs : st.slots with
      | nil => rfl
      | cons a b =>
        obtain ⟨s, hs, _⟩ := keep (by rw [hs]; simp)
        rw [he] at hs
        cases hs
    have sub : ∀ s, s ∈ st.slots.filter (g ≤ ·.rev) → s ∈ st.slots := fun s hs => (List.mem_filter.mp hs).1
    have live : ∀ s, Live { st with gcs := st.gcs.eraseIdx i, slots := st.slots.filter (g ≤ ·.rev), cache := sweep st.cache } s → Live st s := by
      rintro s (hs | hs)
      · exact .inl (sub s hs)
      · exact .inr hs
    have ne : st.slots.filter (g ≤ ·.rev) ≠ [] → st.slots ≠ [] := by
      intro hx he
      rw [he] at hx
      exact hx rfl
    exact {
      heap := h.heap
      global := fun e he => h.global e (sweep_global _ e he)
      right := fun s hs => h.right s (live s hs)
      apart := fun s t hs ht => h.apart s t (live s hs) (live t ht)
      bound := fun s hs => h.bound s (live s hs)
      dflt := h.dflt
      free := h.free
      empty := fun he => ⟨fun s hs => (h.empty (nonempty he)).1 s (live s hs), (h.empty (nonempty he)).2⟩
      ctx := h.ctx
      hist := fun s hs => h.hist s (sub s hs)
      ids := h.ids
      top := fun hs => keep (ne hs)
      below := fun s hs => h.below s (sub s hs)
      lock := h.lock
      warm := by
        intro hs l hl hc
        obtain ⟨s, hs, he⟩ := h.warm (ne hs) l hl hc
        exact ⟨s, List.mem_filter.mpr ⟨hs, decide_eq_true (he ▸ g2 l hl hc)⟩, he⟩
      cold := fun hs => h.cold (nonempty hs)
      alone := fun hs => h.alone (nonempty hs)
      gcs := fun g hg => h.gcs g (List.mem_of_mem_eraseIdx hg) }

theorem inv_clear {ws : List World} {st : St} (h : Inv L ws st) (ha : Allowed st .clear) : Inv L ws (step L st .clear).1 := by
  obtain ⟨hl, hg⟩ : st.locks = [] ∧ st.gcs = [] := ha
  simp only [step]
  have live : ∀ s, ¬Live { st with slots := [], dflt := ⟨0, st.fresh, st.fresh + 1⟩, fresh := st.fresh + 2, cache := ⟨st.cache.heap, []⟩ } s := by
    rintro s (hs | ⟨l, hs, _⟩)
    · cases hs
    · rw [hl] at hs
      cases hs
  exact {
    heap := h.heap
    global := fun e he => by cases he
    right := fun s hs => absurd hs (live s)
    apart := fun s t hs => absurd hs (live s)
    bound := fun s hs => absurd hs (live s)
    dflt := Nat.lt_succ_self _
    free := fun a k ha => h.free a k (by simp only at ha; omega)
    empty := fun _ => ⟨fun s hs => absurd hs (live s), fun k => h.free _ k (by simp)⟩
    ctx := h.ctx
    hist := fun s hs => by cases hs
    ids := h.ids
    top := fun hs => absurd rfl hs
    below := fun s hs => by cases hs
    lock := h.lock
    warm := fun hs => absurd rfl hs
    cold := fun _ l hx => by rw [hl] at hx; cases hx
    alone := fun _ => by rw [hl]; simp
    gcs := fun g hx => by rw [hg] at hx; cases hx }

theorem inv_ask {ws : List World} {st : St} (h : Inv L ws st) (hr : ∀ w ∈ ws, ∃ rank, Ranked L w.files rank) (id : Nat) (f : Fid) (n : Nat) :
    Inv L ws (step L st (.ask id f n)).1 := by
  simp only [step]
  split
  · rename_i i e slot w hf
    split
    · exact h
    · rename_i s hs
      split
      · exact h
      · rename_i v c hc
        obtain ⟨hm, _⟩ := find_some hf
        obtain ⟨h1, h2, h3⟩ := h.ctx _ hm slot w rfl
        obtain ⟨rank, hrank⟩ := hr w h3
        have hlive : Live st slot := .inr ⟨_, hm, w, rfl⟩
        have ok : Ok L slot.incr w.files st.cache := ⟨h.heap, h.global, by rw [← h2]; exact h.right slot hlive⟩
        obtain ⟨k1, k2, k3⟩ := (stage_right hrank n f s [] st.cache hs (by simp) ok).1 v c hc
        exact {
          heap := k1.heap
          global := k1.global
          right := by
            intro t ht k u hu
            simp only at hu
            by_cases he : t.incr.next = slot.incr.next
            · rw [he] at hu
              rw [h.apart t slot ht hlive he, h2]
              exact k1.next k u hu
            · rw [k2.other _ _ he] at hu
              exact h.right t ht k u hu
          apart := h.apart
          bound := h.bound
          dflt := h.dflt
          free := by
            intro a k ha
            simp only
            rw [k2.other a k]
            · exact h.free a k ha
            · have := h.bound slot hlive
              simp only at ha
              omega
          empty := by
            intro he
            obtain ⟨e1, e2⟩ := h.empty he
            refine ⟨e1, fun k => ?_⟩
            simp only
            rw [k2.other _ _ (fun e => e1 slot hlive e.symm)]
            exact e2 k
          ctx := h.ctx
          hist := h.hist
          ids := h.ids
          top := h.top
          below := h.below
          lock := h.lock
          warm := h.warm
          cold := h.cold
          alone := h.alone
          gcs := h.gcs }
  · exact h

theorem inv_enter {ws : List World} {st : St} (h : Inv L ws st) (id : Nat) (w : World) (hw : w ∈ ws)
    (one : ∀ a ∈ ws, ∀ b ∈ ws, a.rev = b.rev → a.files = b.files) (ha : Allowed st (.enter id w)) : Inv L ws (step L st (.enter id w)).1 := by
  simp only [step]
  split
  · rename_i i e hf
    obtain ⟨hm, hi⟩ := find_some hf
    simp only at hi
    subst hi
    have hle : e ≤ w.rev := ha _ hm rfl
    -- the locks afterwards
    have locks : ∀ (slot : Slot) (l : Lock), l ∈ st.locks.map (fun l => if l.id = i then { l with ctx := some (slot, w) } else l) →
        (l ∈ st.locks ∧ l.id ≠ i) ∨ l = ⟨i, e, some (slot, w)⟩ := by
      intro slot l hl
      obtain ⟨l0, hl0, rfl⟩ := List.mem_map.mp hl
      by_cases hx : l0.id = i
      · rw [if_pos hx]
        have := same_id h.ids hl0 hm hx
        rw [this]
        exact .inr rfl
      · rw [if_neg hx]
        exact .inl ⟨hl0, hx⟩
    have ids : ∀ slot : Slot, (st.locks.map (fun l => if l.id = i then { l with ctx := some (slot, w) } else l)).Pairwise fun a b => a.id ≠ b.id := by
      intro slot
      rw [List.pairwise_map]
      refine h.ids.imp ?_
      intro a b hab
      have : ∀ l : Lock, (if l.id = i then { l with ctx := some (slot, w) } else l : Lock).id = l.id := by
        intro l
        split <;> rfl
      rw [this, this]
      exact hab
    unfold findRevision
    cases hb : base st.slots w.rev with
    | some b =>
      obtain ⟨b1, b2, b3⟩ := base_some hb
      have hne : st.slots ≠ [] := by
        intro he
        rw [he] at b1
        cases b1
      simp only
      split
      · -- the slot is there
        rename_i hrev
        have hfiles : b.files = w.files := by
          obtain ⟨w', hw', r1, r2⟩ := h.hist b b1
          rw [← r2]
          exact one w' hw' w hw (r1.trans hrev)
        simp only
        have live : ∀ s, Live { st with locks := st.locks.map fun l => if l.id = i then { l with ctx := some (b, w) } else l } s → Live st s := by
          rintro s (hs | ⟨l, hl, w', hw'⟩)
          · exact .inl hs
          · rcases locks b l hl with ⟨hl, _⟩ | rfl
            · exact .inr ⟨l, hl, w', hw'⟩
            · cases hw'
              exact .inl b1
        exact {
          heap := h.heap
          global := h.global
          right := fun s hs => h.right s (live s hs)
          apart := fun s t hs ht => h.apart s t (live s hs) (live t ht)
          bound := fun s hs => h.bound s (live s hs)
          dflt := h.dflt
          free := h.free
          empty := fun he => absurd he hne
          ctx := by
            intro l hl s w' hw'
            rcases locks b l hl with ⟨hl, _⟩ | rfl
            · exact h.ctx l hl s w' hw'
            · cases hw'
              exact ⟨hrev, hfiles, hw⟩
          hist := h.hist
          ids := ids b
          top := h.top
          below := h.below
          lock := by
            intro l hl
            rcases locks b l hl with ⟨hl, _⟩ | rfl
            · exact h.lock l hl
            · have := h.lock _ hm
              exact this
          warm := by
            intro hs l hl hc
            rcases locks b l hl with ⟨hl, _⟩ | rfl
            · exact h.warm hs l hl hc
            · cases hc
          cold := fun he => absurd he hne
          alone := fun he => absurd he hne
          gcs := by
            intro g hg
            refine ⟨(h.gcs g hg).1, ?_⟩
            intro l hl hc
            rcases locks b l hl with ⟨hl, _⟩ | rfl
            · exact (h.gcs g hg).2 l hl hc
            · cases hc }
      · -- a new slot after an older one
        rename_i hrev
        simp only
        generalize hsl : (⟨w.rev, ⟨w.rev, b.incr.next, st.fresh⟩, w.files⟩ : Slot) = slot
        have snext : slot.incr.next = st.fresh := by rw [← hsl]
        have srev : slot.rev = w.rev := by rw [← hsl]
        have sfiles : slot.files = w.files := by rw [← hsl]
        have live : ∀ s, Live { st with slots := st.slots ++ [slot], est := max w.rev st.est, fresh := st.fresh + 1, locks := st.locks.map fun l => if l.id = i then { l with ctx := some (slot, w) } else l } s → Live st s ∨ s = slot := by
          rintro s (hs | ⟨l, hl, w', hw'⟩)
          · rcases List.mem_append.mp hs with hs | hs
            · exact .inl (.inl hs)
            · exact .inr (List.mem_singleton.mp hs)
          · rcases locks slot l hl with ⟨hl, _⟩ | rfl
            · exact .inl (.inr ⟨l, hl, w', hw'⟩)
            · cases hw'
              exact .inr rfl
        exact {
          heap := h.heap
          global := h.global
          right := by
            intro s hs k v hv
            rcases live s hs with hs | rfl
            · exact h.right s hs k v hv
            · simp only [snext, h.free st.fresh k (Nat.le_refl _)] at hv
              cases hv
          apart := by
            intro s t hs ht he
            rcases live s hs with hs' | hs' <;> rcases live t ht with ht' | ht'
            · exact h.apart s t hs' ht' he
            · have := h.bound s hs'
              rw [ht'] at he
              omega
            · have := h.bound t ht'
              rw [hs'] at he
              omega
            · rw [hs', ht']
          bound := by
            intro s hs
            rcases live s hs with hs | rfl
            · exact Nat.lt_succ_of_lt (h.bound s hs)
            · rw [snext]; exact Nat.lt_succ_self _
          dflt := Nat.lt_succ_of_lt h.dflt
          free := fun a k ha => h.free a k (Nat.le_of_succ_le ha)
          empty := fun he => absurd he (by simp)
          ctx := by
            intro l hl s w' hw'
            rcases locks slot l hl with ⟨hl, _⟩ | rfl
            · exact h.ctx l hl s w' hw'
            · cases hw'
              exact ⟨srev, sfiles, hw⟩
          hist := by
            intro s hs
            rcases List.mem_append.mp hs with hs | hs
            · exact h.hist s hs
            · rw [List.mem_singleton.mp hs]
              exact ⟨w, hw, srev.symm, sfiles.symm⟩
          ids := ids slot
          top := by
            intro _
            by_cases hx : w.rev ≤ st.est
            · obtain ⟨s, hs, he⟩ := h.top hne
              exact ⟨s, List.mem_append.mpr (.inl hs), by rw [he]; simp only; omega⟩
            · exact ⟨slot, List.mem_append.mpr (.inr (List.mem_singleton.mpr rfl)), by rw [srev]; simp only; omega⟩
          below := by
            intro s hs
            simp only
            rcases List.mem_append.mp hs with hs | hs
            · have := h.below s hs
              omega
            · rw [List.mem_singleton.mp hs, srev]
              omega
          lock := by
            intro l hl
            simp only
            rcases locks slot l hl with ⟨hl, _⟩ | rfl
            · have := h.lock l hl
              omega
            · have := h.lock _ hm
              simp only at this ⊢
              omega
          warm := by
            intro _ l hl hc
            rcases locks slot l hl with ⟨hl, _⟩ | rfl
            · obtain ⟨s, hs, he⟩ := h.warm hne l hl hc
              exact ⟨s, List.mem_append.mpr (.inl hs), he⟩
            · cases hc
          cold := fun he => absurd he (by simp)
          alone := fun he => absurd he (by simp)
          gcs := by
            intro g hg
            have := (h.gcs g hg).1
            refine ⟨by simp only; omega, ?_⟩
            intro l hl hc
            rcases locks slot l hl with ⟨hl, _⟩ | rfl
            · exact (h.gcs g hg).2 l hl hc
            · cases hc }
    | none =>
      have hnil : st.slots = [] := by
        cases hs : st.slots with
        | nil => rfl
        | cons a r =>
          obtain ⟨s, hs', he⟩ := h.warm (by rw [hs]; simp) _ hm rfl
          have := base_none hb s hs'
          simp only at he
          omega
      obtain ⟨d1, d2⟩ := h.empty hnil
      have hest : e = st.est := h.cold hnil _ hm
      simp only
      generalize hsl : (⟨w.rev, st.dflt, w.files⟩ : Slot) = slot
      have snext : slot.incr.next = st.dflt.next := by rw [← hsl]
      have srev : slot.rev = w.rev := by rw [← hsl]
      have sfiles : slot.files = w.files := by rw [← hsl]
      have only : ∀ l ∈ st.locks.map (fun l => if l.id = i then { l with ctx := some (slot, w) } else l), l = ⟨i, e, some (slot, w)⟩ := by
        intro l hl
        rcases locks slot l hl with ⟨hl, hne⟩ | rfl
        · have := h.alone hnil
          cases hx : st.locks with
          | nil => rw [hx] at hl; cases hl
          | cons a r =>
            rw [hx] at this hl hm
            have hr : r = [] := by
              cases r with
              | nil => rfl
              | cons _ _ => simp at this
            subst hr
            rw [List.mem_singleton] at hl hm
            rw [hl, ← hm] at hne
            exact absurd rfl hne
        · rfl
      have live : ∀ s, Live { st with slots := st.slots ++ [slot], est := max w.rev st.est, locks := st.locks.map fun l => if l.id = i then { l with ctx := some (slot, w) } else l } s → s = slot := by
        rintro s (hs | ⟨l, hl, w', hw'⟩)
        · rw [hnil] at hs
          exact List.mem_singleton.mp hs
        · rw [only l hl] at hw'
          cases hw'
          rfl
      exact {
        heap := h.heap
        global := h.global
        right := by
          intro s hs k v hv
          rw [live s hs, snext] at hv
          simp only [d2 k] at hv
          cases hv
        apart := by
          intro s t hs ht _
          rw [live s hs, live t ht]
        bound := by
          intro s hs
          rw [live s hs, snext]
          exact h.dflt
        dflt := h.dflt
        free := h.free
        empty := fun he => absurd he (by simp)
        ctx := by
          intro l hl s w' hw'
          rw [only l hl] at hw'
          cases hw'
          exact ⟨srev, sfiles, hw⟩
        hist := by
          intro s hs
          simp only [hnil, List.nil_append] at hs
          rw [List.mem_singleton.mp hs]
          exact ⟨w, hw, srev.symm, sfiles.symm⟩
        ids := ids slot
        top := by
          intro _
          exact ⟨slot, List.mem_append.mpr (.inr (List.mem_singleton.mpr rfl)), by rw [srev]; simp only; omega⟩
        below := by
          intro s hs
          simp only [hnil, List.nil_append] at hs
          rw [List.mem_singleton.mp hs, srev]
          simp only
          omega
        lock := by
          intro l hl
          rw [only l hl]
          simp only
          omega
        warm := by
          intro _ l hl hc
          rw [only l hl] at hc
          cases hc
        cold := fun he => absurd he (by simp)
        alone := fun he => absurd he (by simp)
        gcs := by
          intro g hg
          have := (h.gcs g hg).1
          refine ⟨by simp only; omega, ?_⟩
          intro l hl hc
          rw [only l hl] at hc
          cases hc }
  · exact h

theorem inv_run {ws : List World} (one : ∀ a ∈ ws, ∀ b ∈ ws, a.rev = b.rev → a.files = b.files) (hr : ∀ w ∈ ws, ∃ rank, Ranked L w.files rank) :
    ∀ (ops : List Op) (st : St), (∀ w ∈ worlds ops, w ∈ ws) → Calm L st ops → Inv L ws st → Inv L ws (run L st ops) := by
  intro ops
  induction ops with
  | nil => exact fun st _ _ h => h
  | cons o ops ih =>
    intro st hw hc h
    obtain ⟨ha, hc⟩ := hc
    have hw' : ∀ w ∈ worlds ops, w ∈ ws := by
      intro w hx
      refine hw w ?_
      simp only [worlds, List.mem_filterMap] at hx ⊢
      obtain ⟨a, h1, h2⟩ := hx
      exact ⟨a, List.mem_cons_of_mem _ h1, h2⟩
    refine ih _ hw' hc ?_
    cases o with
    | lock id => exact inv_lock h id ha
    | enter id w => exact inv_enter h id w (hw w (by simp [worlds])) one ha
    | ask id f n => exact inv_ask h hr id f n
    | drop id => exact inv_drop h id
    | gc i => exact inv_gc h i
    | clear => exact inv_clear h ha

/-- **C176.** The analysis of a file is that of its text in the files of the question, whatever was analysed for other states of the files
before, and whichever questions go on at the same time.
Missing: several projects, imports in a circle and questions put while the first one waits. -/
theorem answer_right_partial {ops : List Op} (one : OneProject ops) (hr : ∀ w ∈ worlds ops, ∃ rank, Ranked L w.files rank) (hc : Calm L init ops)
    {l : Lock} (hl : l ∈ (run L init ops).locks) {slot : Slot} {w : World} (hx : l.ctx = some (slot, w)) {f : Fid} {n : Nat} {st' : St} {v : Info}
    (h : step L (run L init ops) (.ask l.id f n) = (st', some v)) : ∃ s, w.files f = some s ∧ Analysis L w.files f s v := by
  have inv := inv_run one hr ops init (fun w hw => hw) hc (inv_init _)
  generalize run L init ops = st at *
  simp only [step] at h
  split at h
  · rename_i i e slot' w' hf
    obtain ⟨hm, hi⟩ := find_some hf
    have := same_id inv.ids hl hm hi.symm
    rw [this] at hx
    cases hx
    split at h
    · cases h
    · rename_i s hs
      split at h
      · cases h
      · rename_i u c hcc
        cases h
        obtain ⟨h1, h2, h3⟩ := inv.ctx _ hm slot w rfl
        obtain ⟨rank, hrank⟩ := hr w h3
        have ok : Ok L slot.incr w.files st.cache := ⟨inv.heap, inv.global, by rw [← h2]; exact inv.right slot (.inr ⟨_, hm, w, rfl⟩)⟩
        exact ⟨s, hs, ((stage_right hrank n f s [] st.cache hs (by simp) ok).1 v c hcc).2.2⟩
  · cases h

/-- **C176.** Files that do not import each other in a circle are analysed. -/
theorem answered {ops : List Op} (one : OneProject ops) (hr : ∀ w ∈ worlds ops, ∃ rank, Ranked L w.files rank) (hc : Calm L init ops)
    {l : Lock} (hl : l ∈ (run L init ops).locks) {slot : Slot} {w : World} (hx : l.ctx = some (slot, w)) {rank : Fid → Nat}
    (hrank : Ranked L w.files rank) {f : Fid} {s : Src} (hs : w.files f = some s) {n : Nat} (hn : rank f < n) :
    (step L (run L init ops) (.ask l.id f n)).2.isSome = true := by
  have inv := inv_run one hr ops init (fun w hw => hw) hc (inv_init _)
  generalize run L init ops = st at *
  have hf : find l.id st.locks = some l := by
    cases hq : find l.id st.locks with
    | none => exact absurd rfl (find_none hq l hl)
    | some l' =>
      obtain ⟨h1, h2⟩ := find_some hq
      rw [same_id inv.ids h1 hl h2]
  obtain ⟨i, e, ctx⟩ := l
  simp only at hx hf
  subst hx
  obtain ⟨h1, h2, h3⟩ := inv.ctx _ hl slot w rfl
  have ok : Ok L slot.incr w.files st.cache := ⟨inv.heap, inv.global, by rw [← h2]; exact inv.right slot (.inr ⟨_, hl, w, rfl⟩)⟩
  have := (stage_right (m := slot.incr) hrank n f s [] st.cache hs (by simp) ok).2 hn
  simp only [step, hf, hs]
  cases hq : stage L w slot.incr n f s [] st.cache with
  | none => exact absurd hq this
  | some q => rfl

/-- **C176.** A question gets the same analysis however often it needs it, and it is made once. -/
theorem made_once {st : St} {id : Nat} {f : Fid} {n : Nat} {st' : St} {v : Info} (h : step L st (.ask id f n) = (st', some v)) (k : Nat) :
    step L st' (.ask id f (k + 1)) = (st', some v) := by
  simp only [step] at h
  split at h
  · rename_i i e slot w hf
    split at h
    · cases h
    · rename_i s hs
      split at h
      · cases h
      · rename_i u c hc
        cases h
        have hn : c.heap slot.incr.next (f, s) = some v := by
          cases n with
          | zero => cases hc
          | succ n =>
            unfold stage compute at hc
            split at hc
            · rename_i v' hv
              cases hc
              exact hv
            · split at hc
              · cases hc
              · cases hc
                simp [set]
        simp only [step, hf, hs]
        unfold stage compute
        simp only [hn]
  · cases h

/-! ## Violations -/

/-- A file imports the file of its text's number; it exports what the file it imports exports, or its text if it imports none. Text below 10 is
an import. -/
def chain : Lang where
  roots := fun _ s => if s < 10 then [s] else []
  targets := fun _ s => if s < 10 then [s] else []
  scope := fun _ s imps => if s < 10 then (imps.map (·.2)).sum else s
  exports := fun _ s imps => if s < 10 then (imps.map (·.2)).sum else s
  body := fun _ _ _ => 0

/-- File 1 imports file 2, which has text `t`. -/
def two (t : Src) : Fid → Option Src := fun f => if f = 1 then some 2 else if f = 2 then some t else none

theorem two_ranked (t : Src) (ht : 10 ≤ t) : Ranked chain (two t) (fun f => if f = 1 then 1 else 0) := by
  intro f s hf x hx
  unfold two at hf
  split at hf
  · rename_i h
    cases hf
    simp [chain] at hx
    simp [hx, h]
  · split at hf
    · cases hf
      simp [chain, Nat.not_lt.mpr ht] at hx
    · cases hf

/-- **C176, violated.** If two questions are put before anything is kept, about a state of the files and a later one, and the later one is begun
first, the other one is answered from the later state. -/
theorem race_at_start :
    let ops := [Op.lock 1, .lock 2, .enter 2 ⟨2, two 20⟩, .ask 2 1 9, .enter 1 ⟨1, two 10⟩]
    OneProject ops ∧ (∀ w ∈ worlds ops, ∃ rank, Ranked chain w.files rank) ∧
    (step chain (run chain init ops) (.ask 1 1 9)).2 = some ⟨1, 2, 2, [(2, 20)], 20, 0⟩ ∧ ¬∃ v : Info, v.exports = 20 ∧ Analysis chain (two 10) 1 2 v := by
  refine ⟨?_, ?_, rfl, ?_⟩
  · intro w hw v hv h
    simp only [worlds, List.filterMap_cons, List.filterMap_nil, List.mem_cons, List.not_mem_nil, or_false] at hw hv
    rcases hw with rfl | rfl <;> rcases hv with rfl | rfl <;> first | rfl | (simp at h)
  · intro w hw
    simp only [worlds, List.filterMap_cons, List.filterMap_nil, List.mem_cons, List.not_mem_nil, or_false] at hw
    rcases hw with rfl | rfl
    · exact ⟨_, two_ranked 20 (by decide)⟩
    · exact ⟨_, two_ranked 10 (by decide)⟩
  · rintro ⟨v, h1, h2⟩
    have hi := h2.imports
    have he := h2.exports
    generalize v.imports = imps at *
    have ht : chain.targets 1 2 = [2] := rfl
    rw [ht] at hi
    cases hi with
    | missing _ _ imps h hs => cases h
    | found _ s e _ imps h hx hs =>
      cases hs
      have : s = 10 := by
        simp [two] at h
        exact h.symm
      subst this
      cases hx with
      | mk _ _ imps h =>
        have : chain.exports 2 10 imps = 10 := rfl
        rw [this] at he
        rw [h1] at he
        simp [chain] at he

/-- **C176, violated.** Two projects have revisions of the same number, and are served from the same cache: a question about one is answered
from the files of the other. -/
theorem two_projects :
    (step chain (run chain init [Op.lock 1, .enter 1 ⟨5, two 20⟩, .ask 1 1 9, .drop 1, .lock 2, .enter 2 ⟨5, two 10⟩]) (.ask 2 1 9)).2 =
      some ⟨1, 5, 2, [(2, 20)], 20, 0⟩ := rfl

/-- File 1 imports file 2; the exports of file 2 are the same for all texts, but its type is its text. -/
def typed : Lang := { chain with scope := fun _ s _ => if s < 10 then 7 else 8, exports := fun _ s _ => if s < 10 then 7 else 8 }

/-- **C176, violated.** The types of a file are not those of its imports: if an imported file is changed such that its names stay the same but
the types of their values do not, files that import it keep the old types. -/
theorem types_stale :
    let typ : Fid → Src → List (Fid × Nat) → Nat := fun _ s ts => if s < 10 then (ts.map (·.2)).sum else s
    let first := typeOf typed typ ⟨1, two 10⟩ ⟨0, 0, 1⟩ 9 9 1 2 ⟨⟨fun _ _ => none, []⟩, ⟨fun _ _ => none, []⟩⟩
    first.map (·.1.ty) = some 10 ∧ (first.bind fun r => typeOf typed typ ⟨2, two 20⟩ ⟨2, 1, 2⟩ 9 9 1 2 r.2).map (·.1.ty) = some 10 ∧
      TypeIn typed typ (two 20) 1 2 20 := by
  refine ⟨rfl, rfl, ?_⟩
  have leaf : TypeIn typed (fun _ s ts => if s < 10 then (ts.map (·.2)).sum else s) (two 20) 2 20 20 := by
    have := TypeIn.mk (L := typed) (typ := fun _ s ts => if s < 10 then (ts.map (·.2)).sum else s) (files := two 20) 2 20 (fun _ => 0)
      (by intro t ht; simp [typed, chain] at ht)
    simpa using this
  have := TypeIn.mk (L := typed) (typ := fun _ s ts => if s < 10 then (ts.map (·.2)).sum else s) (files := two 20) 1 2 (fun _ => 20)
    (by
      intro t ht s' hs
      have ht : t = 2 := by simpa [typed, chain] using ht
      subst ht
      have : s' = 20 := by
        simp [two] at hs
        exact hs.symm
      subst this
      exact leaf)
  have he : (((typed.targets 1 2).filter fun t => (two 20 t).isSome).map fun t => (t, 20)) = [(2, 20)] := rfl
  rw [he] at this
  simpa using this

/-! ## Examples -/

example : Calm chain init [.lock 1, .enter 1 ⟨1, two 10⟩, .ask 1 1 9, .lock 2, .drop 1, .gc 0, .enter 2 ⟨2, two 20⟩, .ask 2 1 9] := by
  refine ⟨fun _ => rfl, ?_, trivial, ?_, trivial, trivial, ?_, trivial, trivial⟩
  · intro l hl _
    have : l = ⟨1, 0, none⟩ := List.mem_singleton.mp hl
    rw [this]
    exact Nat.zero_le _
  · intro h
    cases h
  · intro l hl _
    have : l = ⟨2, 1, none⟩ := List.mem_singleton.mp hl
    rw [this]
    decide

example : (step chain (run chain init [.lock 1, .enter 1 ⟨1, two 10⟩, .ask 1 1 9, .lock 2, .drop 1, .gc 0, .enter 2 ⟨2, two 20⟩])
    (.ask 2 1 9)).2 = some ⟨1, 2, 2, [(2, 20)], 20, 0⟩ := rfl

/-! ## What is kept, and for how long -/

/-- **C176.** Of the analyses of a text the one of the newest revision is kept for all later ones. -/
theorem put_newest {K V : Type} [DecidableEq K] (k : K) (rev : Nat) (v : V) (l : List (K × Nat × V)) :
    (lookup k l = none → lookup k (put k rev v l) = some (rev, v)) ∧
    (∀ r u, lookup k l = some (r, u) → (r < rev → lookup k (put k rev v l) = some (rev, v)) ∧ (rev ≤ r → lookup k (put k rev v l) = some (r, u))) ∧
    ∀ j, j ≠ k → lookup j (put k rev v l) = lookup j l := by
  induction l with
  | nil => refine ⟨fun _ => by simp [put, lookup], fun r u h => (by cases h), fun j hj => by simp [put, lookup, Ne.symm hj]⟩
  | cons x l ih =>
    obtain ⟨k', r', u'⟩ := x
    obtain ⟨ih1, ih2, ih3⟩ := ih
    by_cases hk : k' = k
    · subst hk
      refine ⟨fun h => by simp [lookup] at h, ?_, ?_⟩
      · intro r u h
        simp only [lookup, if_true, Option.some.injEq, Prod.mk.injEq] at h
        obtain ⟨rfl, rfl⟩ := h
        constructor
        · intro hr
          simp [put, hr, lookup]
        · intro hr
          simp [put, Nat.not_lt.mpr hr, lookup]
      · intro j hj
        simp only [put, if_true]
        split <;> simp [lookup, Ne.symm hj]
    · refine ⟨fun h => ?_, fun r u h => ?_, fun j hj => ?_⟩
      · simp only [lookup, hk, if_false] at h
        simp only [put, hk, if_false, lookup]
        exact ih1 h
      · simp only [lookup, hk, if_false] at h
        simp only [put, hk, if_false, lookup]
        exact ih2 r u h
      · simp only [put, hk, if_false, lookup, ih3 j hj]

/-- **C176.** A text that is analysed already is not analysed again if what it imports exports the same. -/
theorem reused {w : World} {stg : Stage} {f : Fid} {route : Route} {p : Info} (c : Cache)
    (hv : validate stg w.files ((f, none) :: route) p.imports c = some (true, c)) : exprOf L w stg f p.src route (some p) c = some (p, c) := by
  simp [exprOf, hv]

/-- A text without imports is never analysed again. -/
theorem reused_alone {w : World} {stg : Stage} {f : Fid} {route : Route} {p : Info} (hp : p.imports = []) (c : Cache) :
    exprOf L w stg f p.src route (some p) c = some (p, c) := reused c (by rw [hp]; rfl)

/-- **C176.** When a question is over, what is discarded is older than what was newest when any of the others was put; nothing is discarded if
another was put at the same time. -/
theorem unlock_keeps {slots : List Slot} {est : Nat} {locks : List Lock} :
    ((∃ l ∈ locks, l.est = est) → unlock slots est locks = none) ∧
    ∀ g, unlock slots est locks = some g → (∀ l ∈ locks, g ≤ l.est) ∧ (locks = [] → g ∈ slots.map (·.rev) ∧ ∀ s ∈ slots, s.rev ≤ g) := by
  constructor
  · rintro ⟨l, hl, he⟩
    unfold unlock
    rw [if_pos (List.any_eq_true.mpr ⟨l, hl, by simpa using he⟩)]
  · intro g h
    unfold unlock at h
    split at h
    · cases h
    · cases hm : least (locks.map (·.est)) with
      | some e =>
        rw [hm] at h
        cases h
        refine ⟨fun l hl => (least_spec hm).2 _ (List.mem_map.mpr ⟨l, hl, rfl⟩), ?_⟩
        rintro rfl
        cases hm
      | none =>
        rw [hm] at h
        have : locks = [] := by
          cases locks with
          | nil => rfl
          | cons a l => cases hm
        subst this
        refine ⟨fun l hl => (by cases hl), fun _ => ⟨(greatest_spec h).1, fun s hs => (greatest_spec h).2 _ (List.mem_map.mpr ⟨s, hs, rfl⟩)⟩⟩

/-- When the last question is over something is discarded, if anything is kept. -/
theorem last_unlock {slots : List Slot} {est : Nat} (h : slots ≠ []) : ∃ g, unlock slots est [] = some g := by
  cases slots with
  | nil => exact absurd rfl h
  | cons a l => exact ⟨_, rfl⟩

/-- When the oldest question is over, something is discarded unless another was put at the same time. -/
theorem oldest_unlock {slots : List Slot} {est : Nat} {locks : List Lock} (h : ∀ l ∈ locks, l.est ≠ est) (hn : locks ≠ []) :
    ∃ g, unlock slots est locks = some g ∧ g ∈ locks.map (·.est) := by
  unfold unlock
  rw [if_neg (by simpa using h)]
  cases hm : least (locks.map (·.est)) with
  | none =>
    cases locks with
    | nil => exact absurd rfl hn
    | cons a l => cases hm
  | some e => exact ⟨e, rfl, (least_spec hm).1⟩

/-! ## Imports in a circle -/

/-- The files that are not being analysed. -/
def left (all : List Fid) (route : Route) : Nat := (all.filter fun f => (route.lookup f).isNone).length

theorem left_cons {all : List Fid} {route : Route} {f : Fid} (hf : f ∈ all) (hr : route.lookup f = none) (e : Option Exp) :
    left all ((f, e) :: route) < left all route := by
  unfold left
  have h : ∀ g, ((((f, e) :: route).lookup g).isNone = true) ↔ (g ≠ f ∧ (route.lookup g).isNone = true) := by
    intro g
    rw [List.lookup_cons]
    by_cases hg : g = f
    · subst hg
      simp
    · have : (g == f) = false := by simpa using hg
      rw [this]
      simp [hg]
  induction all with
  | nil => cases hf
  | cons g all ih =>
    by_cases hg : g = f
    · subst hg
      rw [List.filter_cons_of_neg (by rw [h]; simp), List.filter_cons_of_pos (by rw [hr]; rfl), List.length_cons]
      apply Nat.lt_succ_of_le
      clear ih hf
      induction all with
      | nil => exact Nat.le_refl _
      | cons x all ih =>
        by_cases hx : (route.lookup x).isNone = true
        · rw [List.filter_cons_of_pos (p := fun f => (route.lookup f).isNone) hx]
          by_cases hy : x = g
          · rw [List.filter_cons_of_neg (by rw [h]; simp [hy]), List.length_cons]
            omega
          · rw [List.filter_cons_of_pos (by rw [h]; exact ⟨hy, hx⟩), List.length_cons, List.length_cons]
            omega
        · rw [List.filter_cons_of_neg (p := fun f => (route.lookup f).isNone) hx, List.filter_cons_of_neg (by rw [h]; simp [hx])]
          exact ih
    · have hin : f ∈ all := by
        rcases List.mem_cons.mp hf with h | h
        · exact absurd h.symm hg
        · exact h
      have := ih hin
      by_cases hx : (route.lookup g).isNone = true
      · rw [List.filter_cons_of_pos (p := fun f => (route.lookup f).isNone) hx, List.filter_cons_of_pos (by rw [h]; exact ⟨hg, hx⟩), List.length_cons,
          List.length_cons]
        omega
      · rw [List.filter_cons_of_neg (p := fun f => (route.lookup f).isNone) hx, List.filter_cons_of_neg (by rw [h]; simp [hx])]
        exact this

/-- The stage comes to an end for files that are there and not being analysed. -/
def Ends (files : Fid → Option Src) (route : Route) (stg : Stage) : Prop :=
  ∀ f s c, files f = some s → route.lookup f = none → ∃ r, stg f s route c = some r

theorem exportsOf_ends {files : Fid → Option Src} {route : Route} {stg : Stage} (h : Ends files route stg) {f : Fid} {s : Src} (hs : files f = some s)
    (c : Cache) : ∃ r, exportsOf stg route f s c = some r := by
  unfold exportsOf
  cases hl : route.lookup f with
  | some e => exact ⟨_, rfl⟩
  | none =>
    obtain ⟨r, hr⟩ := h f s c hs hl
    rw [hr]
    exact ⟨_, rfl⟩

theorem validate_ends {files : Fid → Option Src} {route : Route} {stg : Stage} (h : Ends files route stg) :
    ∀ (imps : List (Fid × Exp)) (c : Cache), ∃ r, validate stg files route imps c = some r
  | [], c => ⟨_, rfl⟩
  | (f, e) :: rest, c => by
    unfold validate
    cases hf : files f with
    | none => exact ⟨_, rfl⟩
    | some s =>
      obtain ⟨⟨x, c'⟩, hx⟩ := exportsOf_ends h hf c
      simp only [hx]
      cases x with
      | none => exact validate_ends h rest c'
      | some e' =>
        simp only
        split
        · exact validate_ends h rest c'
        · exact ⟨_, rfl⟩

theorem gather_ends {files : Fid → Option Src} {route : Route} {stg : Stage} (h : Ends files route stg) :
    ∀ (fs : List Fid) (c : Cache), ∃ r, gather stg files route fs c = some r
  | [], c => ⟨_, rfl⟩
  | f :: rest, c => by
    unfold gather
    cases hf : files f with
    | none =>
      obtain ⟨r, hr⟩ := gather_ends h rest c
      simp only [hr]
      exact ⟨_, rfl⟩
    | some s =>
      obtain ⟨⟨x, c'⟩, hx⟩ := exportsOf_ends h hf c
      obtain ⟨r, hr⟩ := gather_ends h rest c'
      simp only [hx, hr]
      exact ⟨_, rfl⟩

theorem stage_ends {w : World} {m : Incr} {all : List Fid} (ha : ∀ f s, w.files f = some s → f ∈ all) :
    ∀ (n : Nat) (route : Route), left all route ≤ n → Ends w.files route (stage L w m n) := by
  intro n
  induction n with
  | zero =>
    intro route hn f s c hs hr
    have : f ∈ all.filter fun f => (route.lookup f).isNone := List.mem_filter.mpr ⟨ha f s hs, by rw [hr]; rfl⟩
    unfold left at hn
    have := List.length_pos_of_mem this
    omega
  | succ n ih =>
    intro route hn f s c hs hr
    have hlt := fun e => left_cons (ha f s hs) hr e
    have hin : ∀ e, Ends w.files ((f, e) :: route) (stage L w m n) := fun e => ih _ (by have := hlt e; omega)
    have han : ∀ c, ∃ r, analyse L w (stage L w m n) f s route c = some r := by
      intro c
      unfold analyse
      obtain ⟨⟨imps, c'⟩, h1⟩ := gather_ends (hin none) (L.roots f s) c
      obtain ⟨r, h2⟩ := gather_ends (hin (some (L.scope f s imps))) (L.targets f s) c'
      simp only [h1, h2]
      exact ⟨_, rfl⟩
    have hex : ∀ prev, ∃ r, exprOf L w (stage L w m n) f s route prev c = some r := by
      intro prev
      unfold exprOf
      cases prev with
      | none => exact han c
      | some p =>
        simp only
        split
        · exact han c
        · obtain ⟨⟨b, c'⟩, h1⟩ := validate_ends (hin none) p.imports c
          simp only [h1]
          cases b with
          | true => exact ⟨_, rfl⟩
          | false => exact han c'
    simp only [stage]
    unfold compute
    cases c.heap m.next (f, s) with
    | some v => exact ⟨_, rfl⟩
    | none =>
      obtain ⟨⟨v, c'⟩, h1⟩ := hex ((c.heap m.prev (f, s)).orElse fun _ => (lookup (f, s) c.global).map (·.2))
      simp only [h1]
      exact ⟨_, rfl⟩

/-- **C176.** Every question that is begun is answered, whatever was asked and kept before, also where files import each other in a circle: the
depth of imports is at most the number of files. -/
theorem answered_always {st : St} {id est : Nat} {slot : Slot} {w : World} (hl : find id st.locks = some ⟨id, est, some (slot, w)⟩) {all : List Fid}
    (ha : ∀ f s, w.files f = some s → f ∈ all) {f : Fid} {s : Src} (hs : w.files f = some s) {n : Nat} (hn : all.length ≤ n) :
    (step L st (.ask id f n)).2.isSome = true := by
  have h0 : left all [] ≤ n := Nat.le_trans (List.length_filter_le _ _) hn
  obtain ⟨⟨v, c⟩, hv⟩ := stage_ends (L := L) (m := slot.incr) ha n [] h0 f s st.cache hs rfl
  simp only [step, hl, hs, hv]
  rfl

/-- A file that imports itself, in a project of one file. -/
example : ∃ st : St, ∃ slot w, find 0 st.locks = some ⟨0, 0, some (slot, w)⟩ ∧ (∀ f s, w.files f = some s → f ∈ [3]) ∧ w.files 3 = some 1 ∧
    (⟨fun _ _ => [], fun f _ => [f], fun _ _ _ => 0, fun _ _ _ => 0, fun _ _ _ => 0⟩ : Lang).targets 3 1 = [3] :=
  ⟨{ init with locks := [⟨0, 0, some (⟨0, ⟨0, 0, 1⟩, fun _ => none⟩, ⟨0, fun f => if f = 3 then some 1 else none⟩)⟩] }, _, _, rfl,
    (by
      intro f s h
      simp only at h
      split at h
      · simp [*]
      · cases h), rfl, rfl⟩

/-- Two files that import each other; exports are one's own and those imported. -/
def circle : Lang := ⟨fun _ _ => [], fun f _ => [3 - f], fun _ _ _ => 1, fun _ _ imps => (imps.map (·.2)).sum + 1, fun _ _ imps => (imps.map (·.2)).sum⟩

def circleWorld : World := ⟨1, fun f => if f = 1 ∨ f = 2 then some 10 else none⟩

/-- **C176, violated.** Where files import each other in a circle, what is said about a file depends on what was asked before. -/
theorem circle_order :
    (step circle (run circle init [.lock 0, .enter 0 circleWorld]) (.ask 0 2 2)).2 ≠
      (step circle (run circle init [.lock 0, .enter 0 circleWorld, .ask 0 1 2]) (.ask 0 2 2)).2 := by
  decide +kernel

/-! ## What is kept of the analyses of a file -/

theorem foldl_max_spec (l : List Nat) : ∀ a, (a ≤ l.foldl max a ∧ ∀ x ∈ l, x ≤ l.foldl max a) ∧ (l.foldl max a = a ∨ l.foldl max a ∈ l) := by
  induction l with
  | nil => exact fun a => ⟨⟨Nat.le_refl _, fun _ h => nomatch h⟩, .inl rfl⟩
  | cons b l ih =>
    intro a
    obtain ⟨⟨h1, h2⟩, h3⟩ := ih (max a b)
    rw [List.foldl_cons]
    refine ⟨⟨by omega, fun x hx => ?_⟩, ?_⟩
    · rcases List.mem_cons.mp hx with rfl | hx
      · omega
      · exact h2 x hx
    · rcases h3 with h3 | h3
      · by_cases hab : b ≤ a
        · exact .inl (by rw [h3]; omega)
        · exact .inr (by rw [h3, Nat.max_eq_right (by omega)]; exact List.mem_cons_self ..)
      · exact .inr (List.mem_cons_of_mem _ h3)

/-- **C176.** A collection of garbage keeps, of what is known of a file across revisions, just what was made last. -/
theorem sweep_keeps (c : Cache) (e : Key × Nat × Info) :
    e ∈ (sweep c).global ↔ e ∈ c.global ∧ ∀ d ∈ c.global, d.2.2.fid = e.2.2.fid → d.2.2.rev ≤ e.2.2.rev := by
  unfold sweep
  simp only [List.mem_filter, decide_eq_true_eq]
  refine and_congr_right fun he => ?_
  have hs := foldl_max_spec ((c.global.filter fun x => x.2.2.fid = e.2.2.fid).map fun x => x.2.2.rev) 0
  have hmem : e.2.2.rev ∈ (c.global.filter fun x => x.2.2.fid = e.2.2.fid).map fun x => x.2.2.rev :=
    List.mem_map.mpr ⟨e, List.mem_filter.mpr ⟨he, by simp⟩, rfl⟩
  change e.2.2.rev = List.foldl max 0 _ ↔ _
  generalize List.foldl max 0 ((c.global.filter fun x => x.2.2.fid = e.2.2.fid).map fun x => x.2.2.rev) = top at hs
  obtain ⟨⟨-, h2⟩, h3⟩ := hs
  constructor
  · intro h d hd hf
    rw [h]
    exact h2 _ (List.mem_map.mpr ⟨d, List.mem_filter.mpr ⟨hd, by simpa using hf⟩, rfl⟩)
  · intro h
    have hle := h2 _ hmem
    rcases h3 with h3 | h3
    · omega
    · obtain ⟨d, hd, hr⟩ := List.mem_map.mp h3
      obtain ⟨hd1, hd2⟩ := List.mem_filter.mp hd
      have := h d hd1 (by simpa using hd2)
      omega

end Tinymist.RevCache
