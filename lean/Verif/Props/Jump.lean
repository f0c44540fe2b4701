import Verif.Spec.Jump
import Verif.Props.Position

/-!
# C40: resolved preview selections lie inside the source
-/

namespace Tinymist.Jump

open Tinymist.Position

theorem le_iff (a b : RowCol) : le a b = true ↔ Le a b := by
  unfold le Le
  simp

theorem Le.refl (a : RowCol) : Le a a := .inr ⟨rfl, Nat.le_refl _⟩

theorem Le.trans {a b c : RowCol} (h : Le a b) (h' : Le b c) : Le a c := by
  unfold Le at *; omega

theorem Le.total (a b : RowCol) : Le a b ∨ Le b a := by
  unfold Le; omega

theorem not_le {a b : RowCol} (h : ¬ le a b = true) : Le b a := by
  rw [le_iff] at h
  rcases Le.total a b with h' | h'
  · exact absurd h' h
  · exact h'

theorem le_max_right (a b : RowCol) : Le b (max a b) := by
  unfold max; split
  · exact Le.refl _
  · rename_i h; exact not_le h

theorem min_le_right (a b : RowCol) : Le (min a b) b := by
  unfold min; split
  · rename_i h; exact (le_iff _ _).mp h
  · exact Le.refl _

theorem le_min {a b c : RowCol} (h : Le a b) (h' : Le a c) : Le a (min b c) := by
  unfold min; split <;> assumption

theorem max_mono {a b : RowCol} (u : RowCol) (h : Le a b) : Le (max a u) (max b u) := by
  unfold max
  split
  · split
    · exact Le.refl _
    · rename_i h1 h2; exact not_le h2
  · rename_i h1
    have := not_le h1
    split
    · rename_i h2; exact h.trans ((le_iff _ _).mp h2)
    · exact h

theorem min_mono {a b : RowCol} (v : RowCol) (h : Le a b) : Le (min a v) (min b v) := by
  unfold min
  split
  · rename_i h1
    split
    · exact h
    · exact (le_iff _ _).mp h1
  · rename_i h1
    have := not_le h1
    split
    · exact this.trans h
    · exact Le.refl _

theorem max_eq_left {a u : RowCol} (h : Le u a) : max a u = a ∨ max a u = u ∧ Le a u := by
  unfold max; split
  · rename_i h'; exact .inr ⟨rfl, (le_iff _ _).mp h'⟩
  · exact .inl rfl

theorem Le.antisymm {a b : RowCol} (h : Le a b) (h' : Le b a) : a = b := by
  obtain ⟨a1, a2⟩ := a
  obtain ⟨b1, b2⟩ := b
  unfold Le at h h'
  simp only at h h'
  have h1 : a1 = b1 := by omega
  have h2 : a2 = b2 := by omega
  rw [h1, h2]

theorem clamp_inside {a u v : RowCol} (h : Le u a) (h' : Le a v) : min (max a u) v = a := by
  have h1 : max a u = a := by
    rcases max_eq_left h with e | ⟨e, h2⟩
    · exact e
    · rw [e]; exact h.antisymm h2
  rw [h1]
  unfold min
  rw [if_pos ((le_iff _ _).mpr h')]

/-! ## Places -/

theorem resolveOff_at (pre post : Text) : ∃ p, resolveOff (pre ++ post) (len8 pre) = some p ∧ Place pre post p := by
  obtain ⟨A, hd, t, B, hat, e1, _⟩ := at_of (pre ++ post) pre post rfl
  unfold Place
  have hl : len8 pre = len8 A.flatten + len8 hd := by rw [e1, len8_append]
  rw [hl]
  refine ⟨(A.length, hd.length), ?_, toLsp_at .utf8 hat⟩
  unfold resolveOff
  rw [byteToLine_at hat, byteToColumn, lineHead_at hat]
  rfl

theorem place_unique {pre post : Text} {p q : RowCol} (h : Place pre post p) (h' : Place pre post q) : p = q := by
  unfold Place at h h'
  rw [h] at h'
  injection h'

theorem resolveOff_eq {pre post : Text} {p : RowCol} (h : Place pre post p) :
    resolveOff (pre ++ post) (len8 pre) = some p := by
  obtain ⟨q, h1, h2⟩ := resolveOff_at pre post
  rw [h1, place_unique h h2]

theorem place_exists (pre post : Text) : ∃ p, Place pre post p := by
  obtain ⟨p, _, h⟩ := resolveOff_at pre post
  exact ⟨p, h⟩

theorem place_mono {pre mid post : Text} {u v : RowCol} (hu : Place pre (mid ++ post) u)
    (hv : Place (pre ++ mid) post v) : Le u v := by
  by_cases hm : mid = []
  · subst hm
    have : u = v := place_unique hu (by simpa using hv)
    subst this; exact Le.refl _
  · obtain ⟨p, q, h1, h2, hb⟩ := position_monotone .utf8 (pre ++ mid ++ post) pre mid post rfl hm
    unfold Place at hu hv
    rw [← List.append_assoc, h1] at hu
    rw [h2] at hv
    injection hu with hu; injection hv with hv
    subst hu; subst hv
    rcases hb with hb | ⟨hb, hb'⟩
    · exact .inl hb
    · exact .inr ⟨hb, Nat.le_of_lt hb'⟩

/-- An offset that is not on a character boundary has no row and column. -/
theorem resolveOff_some {s : Text} {b : Nat} {p : RowCol} (h : resolveOff s b = some p) :
    ∃ pre post, s = pre ++ post ∧ b = len8 pre ∧ Place pre post p := by
  have h0 := h
  unfold resolveOff at h
  rw [Option.bind_eq_some_iff] at h
  obtain ⟨i, hi, h⟩ := h
  rw [Option.map_eq_some_iff] at h
  obtain ⟨c, hc, _⟩ := h
  unfold byteToColumn at hc
  rw [Option.map_eq_some_iff] at hc
  obtain ⟨hd, hh, _⟩ := hc
  unfold lineHead at hh
  rw [hi] at hh
  simp only [Option.bind_eq_bind, Option.bind_some, Option.bind_eq_some_iff] at hh
  obtain ⟨st, hst, ⟨a, r⟩, hsp, _⟩ := hh
  obtain ⟨e1, e2⟩ := splitAtByte_some hsp
  unfold lineToByte at hst
  split at hst
  · injection hst with hst
    have start_le : ∀ (ls : List Text) (b : Nat), len8 (ls.take (lineOf len8 ls b)).flatten ≤ b := by
      intro ls
      induction ls with
      | nil => intro b; simp [lineOf, len8]
      | cons l ls ih =>
        intro b
        cases ls with
        | nil => simp [lineOf, len8]
        | cons m ms =>
          rw [lineOf]
          split
          · simp [len8]
          · rw [List.take_succ_cons, List.flatten_cons, len8_append]
            have := ih (b - len8 l)
            omega
          · simp
    have hle : st ≤ b := by
      unfold byteToLine at hi
      split at hi
      · injection hi with hi
        rw [← hst, ← hi]
        exact start_le _ _
      · cases hi
    have hs : s = ((lines s).take i).flatten ++ a ++ r := by
      conv => lhs; rw [← flatten_lines s, ← List.take_append_drop i (lines s), List.flatten_append, e1]
      rw [List.append_assoc]
    refine ⟨((lines s).take i).flatten ++ a, r, hs, by rw [len8_append]; omega, ?_⟩
    obtain ⟨q, h1, h2⟩ := resolveOff_at (((lines s).take i).flatten ++ a) r
    have hb : len8 (((lines s).take i).flatten ++ a) = b := by rw [len8_append]; omega
    rw [← hs, hb, h0] at h1
    injection h1 with h1
    rw [h1]; exact h2
  · cases hst

theorem split_unique {a b a' b' : Text} (h : a ++ b = a' ++ b') (hl : len8 a = len8 a') : a = a' ∧ b = b' := by
  have h1 := splitAtByte_append a b
  have h2 := splitAtByte_append a' b'
  rw [h, hl, h2] at h1
  injection h1 with h1
  injection h1 with h3 h4
  exact ⟨h3.symm, h4.symm⟩

theorem split_le {a b a' b' : Text} (h : a ++ b = a' ++ b') (hl : len8 a ≤ len8 a') : ∃ m, a' = a ++ m ∧ b = m ++ b' := by
  rcases List.append_eq_append_iff.mp h with ⟨m, h1, h2⟩ | ⟨m, h1, h2⟩
  · exact ⟨m, h1, h2⟩
  · have : m = [] := by
      cases m with
      | nil => rfl
      | cons c m =>
        have := congrArg len8 h1
        rw [len8_append] at this
        have := len8_pos (s := c :: m) (by simp)
        omega
    subst this
    exact ⟨[], by simpa using h1.symm, by simpa using h2.symm⟩

/-! ## C40 -/

variable {S P : Type} [DecidableEq P]

/-- What a span resolves to lies inside its element. -/
theorem resolveSpan_holds (find : S → Option (Element P)) (hp : ∀ s e, find s = some e → e.Proper) (s : S)
    (off : Option Nat) (e : Element P) (he : find s = some e) :
    ∃ i, resolveSpan find s off = some i ∧ i.filepath = e.filepath ∧ (∃ v, i.stop = some v) ∧
      (∀ p, i.start = some p ∨ i.stop = some p → e.Holds p) ∧
      (∀ a b, i.start = some a → i.stop = some b → Le a b) ∧ (off = none → ∃ u, i.start = some u) := by
  obtain ⟨pre, mid, post, ht, hlo, hhi⟩ := hp s e he
  obtain ⟨u, hu⟩ := place_exists pre (mid ++ post)
  obtain ⟨v, hv⟩ := place_exists (pre ++ mid) post
  have hru : resolveOff e.text e.lo = some u := by
    rw [ht, hlo, List.append_assoc]; exact resolveOff_eq hu
  have hrv : resolveOff e.text e.hi = some v := by
    rw [ht, hhi]; exact resolveOff_eq hv
  have huv := place_mono hu hv
  have holds : ∀ p, Le u p → Le p v → e.Holds p := fun p h1 h2 =>
    ⟨pre, mid, post, u, v, ht, hlo, hhi, hu, hv, h1, h2⟩
  -- any offset within the element
  have within : ∀ b p, e.lo ≤ b → b ≤ e.hi → resolveOff e.text b = some p → Le u p ∧ Le p v := by
    intro b p h1 h2 h
    obtain ⟨a, c, e1, e2, hpl⟩ := resolveOff_some h
    have ea : pre ++ (mid ++ post) = a ++ c := by rw [← e1, ht]; simp
    obtain ⟨m, rfl, hm⟩ := split_le ea (by omega)
    have eb : (pre ++ m) ++ c = (pre ++ mid) ++ post := by rw [← ea]; simp
    obtain ⟨m', hm1, hm2⟩ := split_le eb (by omega)
    refine ⟨place_mono (mid := m) (by rw [← hm]; exact hu) hpl, ?_⟩
    refine place_mono (mid := m') (by rw [← hm2]; exact hpl) (by rw [← hm1]; exact hv)
  have hlohi : e.lo ≤ e.hi := by rw [hlo, hhi, len8_append]; omega
  have hfin : ∀ lo', e.lo ≤ lo' → lo' ≤ e.hi →
      (∀ p, resolveOff e.text lo' = some p ∨ resolveOff e.text e.hi = some p → e.Holds p) ∧
      (∀ a b, resolveOff e.text lo' = some a → resolveOff e.text e.hi = some b → Le a b) := by
    intro lo' h1 h2
    constructor
    · rintro p (h | h)
      · have := within lo' p h1 h2 h; exact holds p this.1 this.2
      · rw [hrv] at h; injection h with h; subst h; exact holds v huv (Le.refl _)
    · intro a b ha hb
      rw [hrv] at hb; injection hb with hb; subst hb
      exact (within lo' a h1 h2 ha).2
  refine ⟨_, by rw [resolveSpan, he]; rfl, rfl, ⟨v, hrv⟩, ?_⟩
  cases off with
  | none => exact ⟨(hfin e.lo (Nat.le_refl _) hlohi).1, (hfin e.lo (Nat.le_refl _) hlohi).2, fun _ => ⟨u, hru⟩⟩
  | some off =>
    simp only
    split
    · have := hfin (e.lo + off) (by omega) (by omega)
      exact ⟨this.1, this.2, fun h => nomatch h⟩
    · have := hfin e.lo (Nat.le_refl _) hlohi
      exact ⟨this.1, this.2, fun h => nomatch h⟩

theorem reorder_file (i : Info P) : (reorder i).filepath = i.filepath := by
  unfold reorder; split
  · split <;> rfl
  · rfl

theorem reorder_ordered (i : Info P) (a b : RowCol) (ha : (reorder i).start = some a) (hb : (reorder i).stop = some b) :
    Le a b := by
  unfold reorder at ha hb
  split at ha
  · rename_i x y hx hy
    simp only [hx, hy] at hb
    split at ha
    · rename_i h
      rw [if_pos h] at hb
      injection ha with ha; injection hb with hb
      subst ha; subst hb
      exact (le_iff _ _).mp h
    · rename_i h
      rw [if_neg h] at hb
      rw [hx] at ha; rw [hy] at hb
      injection ha with ha; injection hb with hb
      subst ha; subst hb
      exact not_le h
  · rename_i h
    split at hb
    · rename_i x y hx hy; exact absurd hy (fun hy => h x y hx hy)
    · exact absurd hb (fun hb => h a b ha hb)

theorem reorder_mem (i : Info P) (p : RowCol) :
    ((reorder i).start = some p ∨ (reorder i).stop = some p) ↔ (i.start = some p ∨ i.stop = some p) := by
  unfold reorder
  split
  · rename_i x y hx hy
    split
    · simp only [hx, hy]; exact Or.comm
    · rw [hx, hy]
  · rfl

theorem combine_file (find : S → Option (Element P)) (s1 s2 : S × Nat) (i : Info P) (e : Element P)
    (he : find s2.1 = some e)
    (h : combine (resolveSpan find s1.1 (some s1.2)) (resolveSpan find s2.1 (some s2.2)) = some i) :
    i.filepath = e.filepath := by
  have h2 : ∃ j, resolveSpan find s2.1 (some s2.2) = some j ∧ j.filepath = e.filepath := by
    rw [resolveSpan, he]; exact ⟨_, rfl, rfl⟩
  obtain ⟨j, hj, hf⟩ := h2
  rw [hj] at h
  cases hs : resolveSpan find s1.1 (some s1.2) with
  | none => rw [hs] at h; injection h with h; rw [← h, hf]
  | some st =>
    rw [hs] at h
    simp only [combine] at h
    split at h
    · rename_i hc
      injection h with h
      rw [← h, ← hf]; exact hc.1
    · injection h with h
      rw [← h, hf]

/-- **C40.** Whatever offsets a client sends: when a selection resolves to a source range, the range is in order, and
it lies in the file and inside the element at the end of the selection; when that cannot be found, in the element at
the start. -/
theorem selection_inside (find : S → Option (Element P)) (hp : ∀ s e, find s = some e → e.Proper)
    (start stop : S × Nat) (i : Info P) (h : resolveSpanRange find start stop = some i) :
    (∀ a b, i.start = some a → i.stop = some b → Le a b) ∧
    ∃ s e, (s = stop.1 ∨ find stop.1 = none ∧ s = start.1) ∧ find s = some e ∧ i.filepath = e.filepath ∧
      ∀ p, i.start = some p ∨ i.stop = some p → e.Holds p := by
  unfold resolveSpanRange at h
  cases hstop : find stop.1 with
  | none =>
    have h1 : ∀ o, resolveSpan find stop.1 o = none := by intro o; rw [resolveSpan, hstop]; rfl
    rw [h1, h1] at h
    cases hstart : find start.1 with
    | none =>
      have : resolveSpan find start.1 (some start.2) = none := by rw [resolveSpan, hstart]; rfl
      rw [this] at h
      simp [combine, restrict] at h
    | some e =>
      obtain ⟨j, hj, hf, _, hh, hle, _⟩ := resolveSpan_holds find hp start.1 (some start.2) e hstart
      rw [hj] at h
      simp only [combine, Option.map_some, restrict, Option.some.injEq] at h
      subst h
      refine ⟨reorder_ordered j, start.1, e, .inr ⟨rfl, rfl⟩, hstart, by rw [reorder_file, hf], ?_⟩
      intro p hp'
      exact hh p ((reorder_mem j p).mp hp')
  | some e =>
    obtain ⟨elem, hel, hef, ⟨v, hv⟩, heh, hele, heu⟩ := resolveSpan_holds find hp stop.1 none e hstop
    obtain ⟨u, hu⟩ := heu rfl
    obtain ⟨ed, hed, hedf, ⟨ev, hev⟩, hedh, _, _⟩ := resolveSpan_holds find hp stop.1 (some stop.2) e hstop
    rw [hel] at h
    obtain ⟨rng, hrng⟩ : ∃ rng, combine (resolveSpan find start.1 (some start.2))
        (resolveSpan find stop.1 (some stop.2)) = some rng := by
      rw [hed]
      cases resolveSpan find start.1 (some start.2) with
      | none => exact ⟨_, rfl⟩
      | some st => simp only [combine]; split <;> exact ⟨_, rfl⟩
    have hrf := combine_file find start stop rng e hstop hrng
    rw [hrng] at h
    simp only [Option.map_some, restrict] at h
    rw [if_pos (by rw [hef, reorder_file, hrf])] at h
    rw [hu, hv] at h
    simp only [Option.some_or] at h
    -- some end of the range is known
    cases hs : (reorder rng).start with
    | none =>
      cases ht : (reorder rng).stop with
      | none =>
        rw [hs, ht] at h
        simp only [Option.none_or, Option.some.injEq] at h
        subst h
        refine ⟨(by intro a b ha; rw [hs] at ha; cases ha), stop.1, e, .inl rfl, hstop, by rw [reorder_file, hrf], ?_⟩
        rintro p (h | h)
        · rw [hs] at h; cases h
        · rw [ht] at h; cases h
      | some b =>
        rw [hs, ht] at h
        simp only [Option.none_or, Option.some_or, Option.some.injEq] at h
        subst h
        refine ⟨?_, stop.1, e, .inl rfl, hstop, by simp [reorder_file, hrf], ?_⟩
        · intro a c ha hc
          simp only [Option.some.injEq] at ha hc
          rw [← ha, ← hc]; exact Le.refl _
        · intro p hp'
          simp only [Option.some.injEq, or_self] at hp'
          subst hp'
          have hu' := heh u (.inl hu)
          obtain ⟨pre, mid, post, u', v', e1, e2, e3, p1, p2, _, _⟩ := heh u (.inl hu)
          have : u = u' := by
            have hq := hu
            rw [resolveSpan, hstop] at hel
            simp only [Option.map_some, Option.some.injEq] at hel
            rw [← hel] at hq
            simp only [e1, e2, List.append_assoc, resolveOff_eq p1] at hq
            injection hq with hq; exact hq.symm
          have hv' : v = v' := by
            have hq := hv
            rw [resolveSpan, hstop] at hel
            simp only [Option.map_some, Option.some.injEq] at hel
            rw [← hel] at hq
            simp only [e1, e3, resolveOff_eq p2] at hq
            injection hq with hq; exact hq.symm
          subst this; subst hv'
          exact ⟨pre, mid, post, u, v, e1, e2, e3, p1, p2, le_min (le_max_right _ _) (hele u v hu hv),
            min_le_right _ _⟩
    | some a =>
      have hboth : ∃ b, ((reorder rng).stop.or (reorder rng).start) = some b ∧ Le a b ∧
          ((reorder rng).stop.or (some a)) = some b := by
        cases ht : (reorder rng).stop with
        | none => exact ⟨a, by rw [hs]; rfl, Le.refl _, rfl⟩
        | some b => exact ⟨b, rfl, reorder_ordered rng a b hs ht, rfl⟩
      obtain ⟨b, _, hab, hb⟩ := hboth
      rw [hs] at h
      simp only [Option.some_or] at h
      rw [hb] at h
      simp only [Option.some.injEq] at h
      subst h
      have inside : ∀ c, e.Holds (min (max c u) v) := by
        intro c
        obtain ⟨pre, mid, post, u', v', e1, e2, e3, p1, p2, _, _⟩ := heh u (.inl hu)
        have : u = u' := by
          have hq := hu
          rw [resolveSpan, hstop] at hel
          simp only [Option.map_some, Option.some.injEq] at hel
          rw [← hel] at hq
          simp only [e1, e2, List.append_assoc, resolveOff_eq p1] at hq
          injection hq with hq; exact hq.symm
        have hv' : v = v' := by
          have hq := hv
          rw [resolveSpan, hstop] at hel
          simp only [Option.map_some, Option.some.injEq] at hel
          rw [← hel] at hq
          simp only [e1, e3, resolveOff_eq p2] at hq
          injection hq with hq; exact hq.symm
        subst this; subst hv'
        exact ⟨pre, mid, post, u, v, e1, e2, e3, p1, p2, le_min (le_max_right _ _) (hele u v hu hv), min_le_right _ _⟩
      refine ⟨?_, stop.1, e, .inl rfl, hstop, by simp [reorder_file, hrf], ?_⟩
      · intro a' b' ha' hb'
        simp only [Option.some.injEq] at ha' hb'
        rw [← ha', ← hb']
        exact min_mono v (max_mono u hab)
      · rintro p (hp' | hp')
        · simp only [Option.some.injEq] at hp'; subst hp'; exact inside a
        · simp only [Option.some.injEq] at hp'; subst hp'; exact inside b

/-- **C40, what is selected.** A selection inside one element, from one character to a later one that is not the end of
the element, resolves to exactly these two places. -/
theorem selection_exact (find : S → Option (Element P)) (s : S) (e : Element P) (pre a b c post : Text)
    (ht : e.text = pre ++ (a ++ b ++ c) ++ post) (hlo : e.lo = len8 pre) (hhi : e.hi = len8 (pre ++ (a ++ b ++ c)))
    (hs : find s = some e) (hc : c ≠ []) (p q : RowCol) (hp : Place (pre ++ a) (b ++ c ++ post) p)
    (hq : Place (pre ++ a ++ b) (c ++ post) q) :
    resolveSpanRange find (s, len8 a) (s, len8 (a ++ b)) = some ⟨e.filepath, some p, some q⟩ := by
  obtain ⟨u, hu⟩ := place_exists pre (a ++ b ++ c ++ post)
  obtain ⟨v, hv⟩ := place_exists (pre ++ (a ++ b ++ c)) post
  have hcpos := len8_pos hc
  have hlen : e.hi - e.lo = len8 a + len8 b + len8 c := by
    rw [hhi, hlo, len8_append, len8_append, len8_append]; omega
  have r0 : resolveOff e.text e.lo = some u := by
    rw [ht, hlo, show pre ++ (a ++ b ++ c) ++ post = pre ++ (a ++ b ++ c ++ post) by simp]; exact resolveOff_eq hu
  have r1 : resolveOff e.text (e.lo + len8 a) = some p := by
    rw [ht, hlo, ← len8_append, show pre ++ (a ++ b ++ c) ++ post = (pre ++ a) ++ (b ++ c ++ post) by simp]
    exact resolveOff_eq hp
  have r2 : resolveOff e.text (e.lo + len8 (a ++ b)) = some q := by
    rw [ht, hlo, ← len8_append, show pre ++ (a ++ b) = pre ++ a ++ b by simp,
      show pre ++ (a ++ b ++ c) ++ post = (pre ++ a ++ b) ++ (c ++ post) by simp]
    exact resolveOff_eq hq
  have r3 : resolveOff e.text e.hi = some v := by rw [ht, hhi]; exact resolveOff_eq hv
  have l1 : Le u p := place_mono (mid := a) (by simpa using hu) (by simpa using hp)
  have l2 : Le p q := place_mono (mid := b) (by simpa using hp) (by simpa using hq)
  have l3 : Le q v := place_mono (mid := c) (by simpa using hq) (by simpa using hv)
  have s1 : resolveSpan find s (some (len8 a)) = some ⟨e.filepath, some p, some v⟩ := by
    rw [resolveSpan, hs]
    simp only [Option.map_some]
    rw [if_pos (by omega), r1, r3]
  have s2 : resolveSpan find s (some (len8 (a ++ b))) = some ⟨e.filepath, some q, some v⟩ := by
    rw [resolveSpan, hs]
    simp only [Option.map_some]
    rw [if_pos (by rw [len8_append]; omega), r2, r3]
  have s0 : resolveSpan find s none = some ⟨e.filepath, some u, some v⟩ := by
    rw [resolveSpan, hs]
    simp only [Option.map_some]
    rw [r0, r3]
  unfold resolveSpanRange
  simp only
  rw [s0, s1, s2]
  have ho : ordered (P := P) ⟨e.filepath, some p, some v⟩ = true := (le_iff _ _).mpr (l2.trans l3)
  simp only [combine, true_and]
  rw [if_pos ho]
  simp only [Option.map_some]
  have hr : reorder (P := P) ⟨e.filepath, some p, some q⟩ = ⟨e.filepath, some p, some q⟩ := by
    unfold reorder
    simp only
    split
    · rename_i h
      have : p = q := l2.antisymm ((le_iff _ _).mp h)
      subst this; rfl
    · rfl
  rw [hr]
  simp only [restrict, Option.some_or, if_true]
  rw [clamp_inside l1 (l2.trans l3), clamp_inside (l1.trans l2) l3]

/-- Shown to the editor, the range is in order. -/
theorem shown_in_order (i : Info P) (h : ∀ a b, i.start = some a → i.stop = some b → Le a b) (r : RowCol × RowCol)
    (hr : showRange i = some r) : Le r.1 r.2 := by
  unfold showRange at hr
  split at hr
  · rename_i a b ha hb; injection hr with hr; subst hr; exact h a b ha hb
  · injection hr with hr; subst hr; exact Le.refl _
  · injection hr with hr; subst hr; exact Le.refl _
  · cases hr

/-- Two texts on two lines: used below. -/
def sample : Bool → Option (Element Nat)
  | true => some ⟨0, "ab\ncdef g".toList, 3, 7⟩
  | false => some ⟨0, "ab\ncdef g".toList, 0, 2⟩

/-- Meets the hypotheses of `selection_inside`. -/
example : (∀ s e, sample s = some e → e.Proper) ∧
    resolveSpanRange sample (false, 1) (true, 2) = some ⟨0, some (1, 0), some (1, 2)⟩ := by
  refine ⟨?_, by decide⟩
  intro s e h
  cases s
  · injection h with h; subst h
    exact ⟨[], "ab".toList, "\ncdef g".toList, by decide, by decide, by decide⟩
  · injection h with h; subst h
    exact ⟨"ab\n".toList, "cdef".toList, " g".toList, by decide, by decide, by decide⟩

/-- Why the end of the element is left out of `selection_exact`: an offset at the end is taken for the start of the
element, and selecting its second half selects the first. -/
theorem selection_to_end : resolveSpanRange sample (true, 2) (true, 4) = some ⟨0, some (1, 0), some (1, 2)⟩ := by
  decide

end Tinymist.Jump
