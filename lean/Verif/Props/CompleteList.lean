import Verif.Props.Complete
/-!
# The list of completions
-/
namespace Tinymist.Complete
open RustNum (print digitChar)

/-! ## Numbers with zeros in front -/

/-- The last `w` digits of a number. -/
def fixedDigits : Nat → Nat → Text
  | 0, _ => []
  | w + 1, n => fixedDigits w (n / 10) ++ [digitChar (n % 10)]

theorem fixedDigits_length (w n : Nat) : (fixedDigits w n).length = w := by
  induction w generalizing n with
  | zero => rfl
  | succ w ih => simp [fixedDigits, ih]

theorem fixedDigits_zero (w : Nat) : fixedDigits w 0 = List.replicate w '0' := by
  induction w with
  | zero => rfl
  | succ w ih => rw [fixedDigits, ih, List.replicate_succ']; rfl

theorem pad_eq_aux (n : Nat) : ∀ w, 0 < w → n < 10 ^ w → (print 10 n).length ≤ w ∧ pad w n = fixedDigits w n := by
  induction n using Nat.strongRecOn with
  | ind n ih =>
    intro w hw hn
    cases w with
    | zero => omega
    | succ w =>
      unfold pad
      rw [print_unfold]
      split
      · rename_i hlt
        refine ⟨by simp, ?_⟩
        simp only [List.length_singleton, Nat.add_sub_cancel, fixedDigits]
        rw [Nat.mod_eq_of_lt hlt, Nat.div_eq_of_lt hlt, fixedDigits_zero]
      · rename_i hge
        have hw0 : 0 < w := by
          cases w with
          | zero => simp at hn; omega
          | succ w => omega
        have hd : n / 10 < 10 ^ w := by
          rw [Nat.pow_succ] at hn; omega
        obtain ⟨h1, h2⟩ := ih (n / 10) (by omega) w hw0 hd
        refine ⟨by simp; omega, ?_⟩
        rw [fixedDigits, ← h2, pad, List.length_append, List.length_singleton, ← List.append_assoc]
        congr 3
        omega

theorem pad_eq {w n : Nat} (hw : 0 < w) (h : n < 10 ^ w) : pad w n = fixedDigits w n := (pad_eq_aux n w hw h).2

theorem lt_append {a b : Text} (h : a < b) (hl : a.length = b.length) (x y : Text) : a ++ x < b ++ y := by
  induction a generalizing b with
  | nil =>
    cases b with
    | nil => exact absurd h (List.lt_irrefl _)
    | cons => simp at hl
  | cons c a ih =>
    cases b with
    | nil => simp at hl
    | cons d b =>
      rw [List.cons_append, List.cons_append, List.cons_lt_cons_iff]
      rcases List.cons_lt_cons_iff.mp h with h | ⟨h, h'⟩
      · exact .inl h
      · exact .inr ⟨h, ih h' (by simpa using hl)⟩

theorem lt_append_left (a : Text) {x y : Text} (h : x < y) : a ++ x < a ++ y := by
  induction a with
  | nil => exact h
  | cons c a ih => rw [List.cons_append, List.cons_append, List.cons_lt_cons_iff]; exact .inr ⟨rfl, ih⟩

theorem digitChar_lt {a b : Nat} (h : a < b) (hb : b < 10) : digitChar a < digitChar b := by
  have : ∀ b, b < 10 → ∀ a, a < b → digitChar a < digitChar b := by decide
  exact this b hb a h

theorem fixedDigits_lt {w n m : Nat} (h : n < m) (hm : m < 10 ^ w) : fixedDigits w n < fixedDigits w m := by
  induction w generalizing n m with
  | zero => simp at hm; omega
  | succ w ih =>
    rw [Nat.pow_succ] at hm
    rw [fixedDigits, fixedDigits]
    rcases Nat.lt_or_ge (n / 10) (m / 10) with hd | hd
    · exact lt_append (ih hd (by omega)) (by rw [fixedDigits_length, fixedDigits_length]) _ _
    · have : n / 10 = m / 10 := by omega
      rw [this]
      exact lt_append_left _ (List.cons_lt_cons_iff.mpr (.inl (digitChar_lt (by omega) (by omega))))

theorem pad_lt {w n m : Nat} (h : n < m) (hm : m < 10 ^ w) : pad w n < pad w m := by
  have hw : 0 < w := by
    cases w with
    | zero => simp at hm; omega
    | succ w => omega
  rw [pad_eq hw (by omega), pad_eq hw hm]
  exact fixedDigits_lt h hm

/-! ## Sorting -/

theorem itemLe_iff (a b : Item) : itemLe a b = true ↔ Before a b := by
  unfold itemLe Before
  cases a.sort <;> cases b.sort <;> simp

theorem before_trans {a b c : Item} (h1 : Before a b) (h2 : Before b c) : Before a c := by
  unfold Before at *
  rcases h1 with ⟨h1, h1'⟩ | ⟨x, y, h1, h1', hxy⟩ | ⟨h1, h1'⟩
  · rcases h2 with ⟨h2, h2'⟩ | ⟨x, y, h2, h2', hxy⟩ | ⟨h2, h2'⟩
    · exact absurd h2 h1'
    · exact .inl ⟨h1, by rw [h2']; simp⟩
    · exact .inl ⟨h1, h2 ▸ h1'⟩
  · rcases h2 with ⟨h2, h2'⟩ | ⟨x', y', h2, h2', hxy'⟩ | ⟨h2, h2'⟩
    · rw [h1'] at h2; cases h2
    · rw [h1'] at h2
      cases h2
      exact .inr (.inl ⟨x, y', h1, h2', List.lt_trans hxy hxy'⟩)
    · exact .inr (.inl ⟨x, y, h1, h2 ▸ h1', hxy⟩)
  · rcases h2 with ⟨h2, h2'⟩ | ⟨x, y, h2, h2', hxy⟩ | ⟨h2, h2'⟩
    · exact .inl ⟨h1.trans h2, h2'⟩
    · exact .inr (.inl ⟨x, y, h1.trans h2, h2', hxy⟩)
    · exact .inr (.inr ⟨h1.trans h2, List.le_trans h1' h2'⟩)

theorem before_total (a b : Item) : Before a b ∨ Before b a := by
  unfold Before
  cases ha : a.sort with
  | none =>
    cases hb : b.sort with
    | none =>
      rcases List.le_total a.label b.label with h | h
      · exact .inl (.inr (.inr ⟨rfl, h⟩))
      · exact .inr (.inr (.inr ⟨rfl, h⟩))
    | some y => exact .inl (.inl ⟨rfl, by simp⟩)
  | some x =>
    cases hb : b.sort with
    | none => exact .inr (.inl ⟨rfl, by simp⟩)
    | some y =>
      by_cases h : x < y
      · exact .inl (.inr (.inl ⟨x, y, rfl, rfl, h⟩))
      · by_cases h' : y < x
        · exact .inr (.inr (.inl ⟨y, x, rfl, rfl, h'⟩))
        · have : x = y := List.le_antisymm (List.not_lt.mp h') (List.not_lt.mp h)
          rcases List.le_total a.label b.label with hl | hl
          · exact .inl (.inr (.inr ⟨by rw [this], hl⟩))
          · exact .inr (.inr (.inr ⟨by rw [this], hl⟩))

theorem sorted (items : List Item) : (items.mergeSort itemLe).Pairwise Before := by
  have := List.pairwise_mergeSort (le := itemLe)
    (fun a b c h1 h2 => (itemLe_iff a c).mpr (before_trans ((itemLe_iff a b).mp h1) ((itemLe_iff b c).mp h2)))
    (fun a b => by
      rcases before_total a b with h | h
      · simp [(itemLe_iff a b).mpr h]
      · simp [(itemLe_iff b a).mpr h]) items
  exact this.imp fun h => (itemLe_iff _ _).mp h

/-! ## What is typed -/

theorem matchLabel_iff (t l : Text) : matchLabel t l = true ↔ t.Sublist l := by
  induction l generalizing t with
  | nil => cases t <;> simp [matchLabel]
  | cons c l ih =>
    cases t with
    | nil => simp [matchLabel]
    | cons d t =>
      rw [matchLabel]
      split
      · rename_i h
        rw [ih, h, List.cons_sublist_cons]
      · rename_i h
        rw [ih]
        constructor
        · exact fun h => h.cons _
        · intro hs
          cases hs with
          | cons _ hs => exact hs
          | cons_cons => exact absurd rfl h

theorem keep_eq (t : Option Text) (items : List Item) :
    keep t items = items.filter fun it => decide ((t.getD []).Sublist it.label) := by
  cases t with
  | none => rw [keep]; exact (List.filter_eq_self.mpr (by simp)).symm
  | some t =>
    rw [keep]
    refine List.filter_congr fun it _ => ?_
    rw [Bool.eq_iff_iff, matchLabel_iff]
    simp

/-! ## The list -/

theorem eq_of_sort {l : List Item} (h : l.Pairwise fun a b => a.sort ≠ b.sort) {a b : Item} (ha : a ∈ l) (hb : b ∈ l)
    (e : a.sort = b.sort) : a = b := by
  induction l with
  | nil => cases ha
  | cons c l ih =>
    obtain ⟨h1, h2⟩ := List.pairwise_cons.mp h
    rcases List.mem_cons.mp ha with rfl | ha
    · rcases List.mem_cons.mp hb with rfl | hb
      · rfl
      · exact absurd e (h1 b hb)
    · rcases List.mem_cons.mp hb with hb | hb
      · exact absurd (hb ▸ e.symm) (h1 a ha)
      · exact ih h2 ha hb

theorem numbered_sort {l : List Item} (h : l.length ≤ 1000) :
    (numberItems l).Pairwise fun a b => ∃ x y, a.sort = some x ∧ b.sort = some y ∧ x < y := by
  rw [List.pairwise_iff_getElem]
  intro i j hi hj hij
  have hj' : j < l.length := by simpa [numberItems] using hj
  simp only [numberItems, List.getElem_mapIdx]
  exact ⟨_, _, rfl, rfl, pad_lt hij (by omega)⟩

/-- The editor's order of a permuted part of numbered items. -/
theorem shown_unique {l items out : List Item} (h : l.Pairwise fun a b => ∃ x y, a.sort = some x ∧ b.sort = some y ∧ x < y)
    (hp : items.Perm l) (hs : Shown items out) : out = l := by
  refine List.Perm.eq_of_pairwise ?_ hs.2 (h.imp ?_) (hs.1.symm.trans hp)
  · intro a b ha hb ⟨x, y, e1, e2, h1⟩ ⟨y', x', e3, e4, h2⟩
    rw [e2] at e3
    rw [e1] at e4
    cases e3
    cases e4
    refine eq_of_sort (l := l) (h.imp ?_) ((hs.1.symm.trans hp).mem_iff.mp ha) hb ?_
    · rintro a b ⟨x, y, e1, e2, h⟩ e
      rw [e1, e2] at e
      cases e
      exact List.lt_irrefl _ h
    · rw [e1, e2, List.le_antisymm h1 h2]
  · rintro a b ⟨x, y, e1, e2, h⟩
    exact ⟨x, y, e1, e2, List.le_of_lt h⟩

/-- What is put before and behind every offered text. -/
def dress (unclosed afterSep selector : Bool) (s : Text) : Text :=
  (if afterSep then [' '] else []) ++ s ++ (if unclosed then [')'] else []) ++
    (if selector then [':', ' ', '$', '{', '}'] else [])

theorem arrange_eq (typed others : List Item) (unclosed afterSep selector : Bool) :
    arrange typed others unclosed afterSep selector =
      ((numberItems (typed.mergeSort itemLe ++ others.mergeSort itemLe)).drop (typed.mergeSort itemLe).length ++
        (numberItems (typed.mergeSort itemLe ++ others.mergeSort itemLe)).take (typed.mergeSort itemLe).length).map
        fun it => { it with edit := { it.edit with new := dress unclosed afterSep selector it.edit.new } } := by
  rw [arrange, show ": ${}".toList = [':', ' ', '$', '{', '}'] from rfl]
  generalize typed.mergeSort itemLe = ts
  generalize others.mergeSort itemLe = os
  generalize numberItems (ts ++ os) = all
  dsimp only
  generalize all.drop ts.length ++ all.take ts.length = l
  cases unclosed <;> cases afterSep <;> cases selector <;>
    simp [enrich, dress, List.map_map, Function.comp_def]

theorem filter_numbered {β} (p : Item → Bool) (g : Item → β) (l : List Item) (f : Nat → Item → Item)
    (hp : ∀ i it, p (f i it) = p it) (hg : ∀ i it, g (f i it) = g it) :
    ((l.mapIdx f).filter p).map g = (l.filter p).map g := by
  induction l generalizing f with
  | nil => rfl
  | cons c l ih =>
    rw [List.mapIdx_cons, List.filter_cons, List.filter_cons, hp]
    have := ih (fun i => f (i + 1)) (fun i => hp (i + 1)) (fun i => hg (i + 1))
    split
    · rw [List.map_cons, List.map_cons, this, hg]
    · exact this

/-- C102 (partial: at most a thousand completions). Whatever the completions are, the editor shows those by type first
and the others behind them, each part in its order; it shows exactly those whose label contains what is typed, and each
with the text it was offered with, completed for the place: a blank behind a separator, a parenthesis that is missing
and the rest of a show rule, numbered as a snippet. -/
theorem list_shown_partial (typed others out : List Item) (unclosed afterSep selector : Bool) (t : Option Text)
    (hlen : typed.length + others.length ≤ 1000)
    (h : Shown (finish t (arrange typed others unclosed afterSep selector)) out) :
    ∃ ts os : List Item, ts.Perm typed ∧ os.Perm others ∧ ts.Pairwise Before ∧ os.Pairwise Before ∧
      (out.map fun it => (it.label, it.edit, it.extra)) =
        ((ts ++ os).filter fun it => decide ((t.getD []).Sublist it.label)).map fun it =>
          (it.label,
            { it.edit with
              new := toLspSnippet ((if afterSep then [' '] else []) ++ it.edit.new ++
                (if unclosed then [')'] else []) ++ (if selector then [':', ' ', '$', '{', '}'] else [])) },
            it.extra) := by
  refine ⟨typed.mergeSort itemLe, others.mergeSort itemLe, List.mergeSort_perm _ _, List.mergeSort_perm _ _,
    sorted _, sorted _, ?_⟩
  have hl : (typed.mergeSort itemLe ++ others.mergeSort itemLe).length ≤ 1000 := by simpa using hlen
  rw [arrange_eq] at h
  generalize typed.mergeSort itemLe = ts at *
  generalize others.mergeSort itemLe = os at *
  rw [finish, keep_eq, List.filter_map, List.map_map] at h
  generalize hp : (fun it : Item => decide ((t.getD []).Sublist it.label)) = p at *
  have hpe : (p ∘ fun it : Item => { it with edit := { it.edit with new := dress unclosed afterSep selector it.edit.new } }) = p := by
    rw [← hp]; rfl
  rw [hpe] at h
  have hs := shown_unique (l := ((numberItems (ts ++ os)).filter p).map _) ?_ (List.Perm.map _ (List.Perm.filter p ?_)) h
  · rw [hs, List.map_map]
    subst hp
    rw [numberItems]
    exact filter_numbered _ _ _ _ (fun _ _ => rfl) (fun _ _ => rfl)
  · rw [List.pairwise_map]
    exact (numbered_sort hl).filter _
  · exact List.perm_append_comm.trans (by rw [List.take_append_drop])

/-- With more than a thousand completions the order is lost: what comes behind 999 others is shown before it. -/
theorem thousand_misplaced : pad 3 1000 < pad 3 999 ∧ pad 3 999 ≠ pad 3 1000 := by
  have h1 : pad 3 1000 = ['1', '0', '0', '0'] := by simp [pad, print_unfold, digitChar]
  have h2 : pad 3 999 = ['9', '9', '9'] := by simp [pad, print_unfold, digitChar]
  rw [h1, h2]
  decide

/-- There is an order in which the editor can show them, so `list_shown_partial` is about every list. -/
theorem list_can_be_shown (typed others : List Item) (unclosed afterSep selector : Bool) (t : Option Text) :
    ∃ out, Shown (finish t (arrange typed others unclosed afterSep selector)) out := by
  rw [arrange_eq, finish, keep_eq]
  generalize hx : List.map _ _ = items
  have hs : ∀ it ∈ items, ∃ x, it.sort = some x := by
    intro it hit
    subst hx
    simp only [List.mem_map, List.mem_filter] at hit
    obtain ⟨a, ⟨⟨b, hb, rfl⟩, -⟩, rfl⟩ := hit
    have hb : b ∈ numberItems (typed.mergeSort itemLe ++ others.mergeSort itemLe) := by
      rcases List.mem_append.mp hb with h | h
      · exact List.mem_of_mem_drop h
      · exact List.mem_of_mem_take h
    rw [numberItems, List.mem_mapIdx] at hb
    obtain ⟨i, hi, rfl⟩ := hb
    exact ⟨_, rfl⟩
  refine ⟨items.mergeSort fun a b => decide (a.sort.getD [] ≤ b.sort.getD []), (List.mergeSort_perm _ _).symm, ?_⟩
  have hm : ∀ it ∈ items.mergeSort fun a b => decide (a.sort.getD [] ≤ b.sort.getD []), ∃ x, it.sort = some x :=
    fun it hit => hs it ((List.mergeSort_perm _ _).mem_iff.mp hit)
  have := List.pairwise_mergeSort (le := fun a b : Item => decide (a.sort.getD [] ≤ b.sort.getD []))
    (fun a b c h1 h2 => by simp only [decide_eq_true_eq] at *; exact List.le_trans h1 h2)
    (fun a b => by simpa using List.le_total _ _) items
  refine List.Pairwise.imp_of_mem (fun {a b} ha hb h => ?_) this
  obtain ⟨x, hx⟩ := hm a ha
  obtain ⟨y, hy⟩ := hm b hb
  exact ⟨x, y, hx, hy, by simpa [hx, hy] using h⟩

/-- A part by type with one match of two and another match: what is shown, at a place behind a separator. -/
example (out : List Item) (h : Shown (finish (some ['b']) (arrange [⟨['a', 'b'], none, ⟨0, 1, ['x']⟩, []⟩,
      ⟨['c'], none, ⟨0, 1, ['y']⟩, []⟩] [⟨['b'], none, ⟨0, 1, ['z']⟩, []⟩] false true false)) out) :
    out.map (·.label) = [['a', 'b'], ['b']] := by
  obtain ⟨ts, os, h1, h2, -, -, h3⟩ := list_shown_partial _ _ _ _ _ _ _ (by decide) h
  have h4 := congrArg (List.map Prod.fst) h3
  rw [List.perm_singleton.mp h2] at h4
  simp only [List.map_map, Function.comp_def, Option.getD_some] at h4
  rw [h4, List.filter_append, List.map_append]
  have h5 := (h1.filter fun it => decide (['b'].Sublist it.label)).map (·.label)
  simp at h5 ⊢
  obtain ⟨a, h5, h6⟩ := h5
  simp [h5, h6]

end Tinymist.Complete
