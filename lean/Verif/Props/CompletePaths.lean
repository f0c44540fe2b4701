import Verif.Spec.CompleteMore
import Verif.Props.CompleteList
import Verif.Props.Rename

/-!
Completion of paths, contexts of snippets, import items, packages and labels.
-/
namespace Tinymist.Complete

open Paths Workspace Rename
open RustNum (print)

/-! ## Contexts -/

theorem expand_some {α} [DecidableEq α] (all : List α) (hall : ∀ x, x ∈ all) (s : Selector α) (x : α) :
    (some x ∈ s.expand all ∨ none ∈ s.expand all) ↔ s.Accepts x := by
  cases s with
  | positive y =>
    cases y with
    | none => simp [Selector.expand, Selector.Accepts]
    | some y => simp [Selector.expand, Selector.Accepts, eq_comm]
  | negative xs =>
    simp only [Selector.expand, Selector.Accepts, List.mem_map, List.mem_filter]
    constructor
    · rintro (⟨y, ⟨-, hy⟩, he⟩ | ⟨y, -, he⟩)
      · cases he
        intro hx
        simp at hy
        exact hy _ hx rfl
      · cases he
    · intro h
      refine .inl ⟨x, ⟨hall x, ?_⟩, rfl⟩
      simp
      exact fun y hy e => h (e ▸ hy)

theorem expand_none {α} [DecidableEq α] (all : List α) (s : Selector α) : none ∈ s.expand all ↔ s = .positive none := by
  cases s with
  | positive y => simp [Selector.expand, eq_comm]
  | negative xs => simp [Selector.expand]

theorem appliesTo_iff (cs : List (Selector Mode × Selector Around)) (k : Option Mode × Option Around) :
    appliesTo cs k = true ↔ ∃ c ∈ cs, k.1 ∈ c.1.expand allModes ∧ k.2 ∈ c.2.expand allArounds := by
  unfold appliesTo
  simp only [List.any_eq_true, beq_iff_eq]
  constructor
  · rintro ⟨c, hc, m, hm, s, hs, rfl⟩
    exact ⟨c, hc, hm, hs⟩
  · rintro ⟨c, hc, hm, hs⟩
    exact ⟨c, hc, _, hm, _, hs, rfl⟩

theorem mem_allModes (m : Mode) : m ∈ allModes := by cases m <;> decide
theorem mem_allArounds (a : Around) : a ∈ allArounds := by cases a <;> decide

/-- **C106.** At a place of which mode and syntax are known a snippet is offered exactly if one of its contexts accepts
both. -/
theorem snippet_offered (cs : List (Selector Mode × Selector Around)) (m : Mode) (a : Around) :
    offers cs (some m) (some a) = true ↔ ∃ c ∈ cs, c.1.Accepts m ∧ c.2.Accepts a := by
  unfold offers contextKeys
  simp only [Option.isSome_some, if_true, List.any_append, Bool.or_eq_true, List.any_cons, List.any_nil, Bool.or_false,
    appliesTo_iff]
  constructor
  · rintro ((⟨c, hc, h1, h2⟩ | ⟨c, hc, h1, h2⟩) | ⟨c, hc, h1, h2⟩ | ⟨c, hc, h1, h2⟩)
    · exact ⟨c, hc, (expand_some _ mem_allModes _ _).mp (.inl h1), (expand_some _ mem_allArounds _ _).mp (.inl h2)⟩
    · exact ⟨c, hc, (expand_some _ mem_allModes _ _).mp (.inr h1), (expand_some _ mem_allArounds _ _).mp (.inl h2)⟩
    · exact ⟨c, hc, (expand_some _ mem_allModes _ _).mp (.inl h1), (expand_some _ mem_allArounds _ _).mp (.inr h2)⟩
    · exact ⟨c, hc, (expand_some _ mem_allModes _ _).mp (.inr h1), (expand_some _ mem_allArounds _ _).mp (.inr h2)⟩
  · rintro ⟨c, hc, h1, h2⟩
    rcases (expand_some _ mem_allModes _ _).mpr h1 with h1 | h1 <;>
      rcases (expand_some _ mem_allArounds _ _).mpr h2 with h2 | h2
    · exact .inl (.inl ⟨c, hc, h1, h2⟩)
    · exact .inr (.inl ⟨c, hc, h1, h2⟩)
    · exact .inl (.inr ⟨c, hc, h1, h2⟩)
    · exact .inr (.inr ⟨c, hc, h1, h2⟩)

/-- **C106.** All callers leave the syntax open: then only contexts that accept any syntax count. -/
theorem snippet_offered_mode (cs : List (Selector Mode × Selector Around)) (m : Mode) :
    offers cs (some m) none = true ↔ ∃ c ∈ cs, c.1.Accepts m ∧ c.2 = .positive none := by
  unfold offers contextKeys
  simp only [Option.isSome_some, Option.isSome_none, if_true, Bool.false_eq_true, if_false, List.append_nil,
    List.any_append, Bool.or_eq_true, List.any_cons, List.any_nil, Bool.or_false, appliesTo_iff]
  constructor
  · rintro (⟨c, hc, h1, h2⟩ | ⟨c, hc, h1, h2⟩)
    · exact ⟨c, hc, (expand_some _ mem_allModes _ _).mp (.inl h1), (expand_none _ _).mp h2⟩
    · exact ⟨c, hc, (expand_some _ mem_allModes _ _).mp (.inr h1), (expand_none _ _).mp h2⟩
  · rintro ⟨c, hc, h1, h2⟩
    rcases (expand_some _ mem_allModes _ _).mpr h1 with h1 | h1
    · exact .inl ⟨c, hc, h1, (expand_none _ _).mpr h2⟩
    · exact .inr ⟨c, hc, h1, (expand_none _ _).mpr h2⟩

/-! ## Paths -/

theorem dots_eq (s : Text) : dots s = (s.takeWhile fun c => c = '.' ∨ c = '/').length := rfl

theorem dots_zero {s : Text} (h1 : s.head? ≠ some '.') (h2 : s.head? ≠ some '/') : dots s = 0 := by
  cases s with
  | nil => rfl
  | cons c s =>
    rw [dots, List.takeWhile_cons_of_neg]
    · rfl
    · simp at h1 h2 ⊢; exact ⟨h1, h2⟩

/-- On relative labels the order is that of the climbs and then of the texts. -/
theorem pathLe_relative {a b : Text} (ha : a.head? ≠ some '/') (hb : b.head? ≠ some '/') :
    pathLe a b = true ↔ PathBefore a b := by
  unfold pathLe PathBefore
  dsimp only
  rw [← dots_eq, ← dots_eq]
  split
  · rename_i h
    simp only [decide_eq_true_eq]
    omega
  · rename_i h
    simp only [decide_eq_true_eq]
    have : dots a = dots b := by
      by_cases h1 : a.head? = some '.' ∨ b.head? = some '.'
      · exact Decidable.byContradiction fun h2 => h ⟨h1, h2⟩
      · rw [dots_zero (fun e => h1 (.inl e)) ha, dots_zero (fun e => h1 (.inr e)) hb]
    constructor
    · exact fun h => .inr ⟨this, h⟩
    · rintro (h | h)
      · omega
      · exact h.2

theorem pathLe_absolute {a b : Text} (ha : a.head? = some '/') (hb : b.head? = some '/') : pathLe a b = true ↔ a ≤ b := by
  unfold pathLe
  rw [if_neg (by rw [ha, hb]; simp)]
  simp

theorem components_slash (r : Text) : (components r).filter (· ≠ .cur) = [] ∧ components (unixSlash r) = [.cur] ∨
    components (unixSlash r) = (components r).filter (· ≠ .cur) := by
  rw [unixSlash_def]
  have hg : ∀ c ∈ (components r).filter (· ≠ .cur), GoodComp c := fun c hc => components_good (List.mem_filter.mp hc).1
  split
  · rename_i h
    exact .inl ⟨collect_eq_nil hg h, by decide⟩
  · rename_i h
    have key : ∀ cs : List Comp, (∀ c ∈ cs, GoodComp c) → (∀ c cs', cs = c :: cs' → ∀ x ∈ cs', x ≠ .root ∧ x ≠ .cur) →
        collect cs ≠ [] → components (collect cs) = cs := by
      intro cs hg ht hne
      cases cs with
      | nil => exact absurd rfl hne
      | cons c cs =>
        exact components_collect c cs (hg c (List.mem_cons_self ..))
          fun x hx => ⟨hg x (List.mem_cons_of_mem _ hx), ht c cs rfl x hx⟩
    refine .inr (key _ hg ?_ h)
    have hb : ∀ x ∈ body (Pages.split '/' r), x ≠ .root ∧ x ≠ .cur := fun x hx => body_inner hx
    have hf : (body (Pages.split '/' r)).filter (· ≠ .cur) = body (Pages.split '/' r) :=
      List.filter_eq_self.mpr fun x hx => by simpa using (hb x hx).2
    intro c cs' e x hx
    rcases components_cases r with ⟨_, es⟩ | ⟨_, es⟩ | ⟨_, es⟩ <;> rw [es] at e
    · rw [List.filter_cons_of_pos (by simp), hf] at e
      cases e
      exact hb x hx
    · rw [List.filter_cons_of_neg (by simp), hf] at e
      exact hb x (by rw [e]; exact List.mem_cons_of_mem _ hx)
    · rw [hf] at e
      exact hb x (by rw [e]; exact List.mem_cons_of_mem _ hx)

theorem within_slash (d : List Text) (r : Text) : within d (components (unixSlash r)) = within d (components r) := by
  rw [← within_filter_cur d (components r)]
  rcases components_slash r with ⟨h1, h2⟩ | h
  · rw [h1, h2]; rfl
  · rw [h]

theorem slash_absolute (r : Text) : isAbsolute (unixSlash r) = isAbsolute r := by
  rw [Bool.eq_iff_iff, isAbsolute_iff, isAbsolute_iff]
  have hb : ∀ x ∈ body (Pages.split '/' r), x ≠ .root ∧ x ≠ .cur := fun x hx => body_inner hx
  have hf : (body (Pages.split '/' r)).filter (· ≠ .cur) = body (Pages.split '/' r) :=
    List.filter_eq_self.mpr fun x hx => by simpa using (hb x hx).2
  have hh : (body (Pages.split '/' r)).head? ≠ some .root := fun e => (hb _ (List.mem_of_mem_head? e)).1 rfl
  rcases components_slash r with ⟨h1, h2⟩ | h
  · rw [h2]
    rcases components_cases r with ⟨_, es⟩ | ⟨_, es⟩ | ⟨_, es⟩ <;> rw [es] at h1 ⊢
    · rw [List.filter_cons_of_pos (by simp)] at h1; cases h1
    · simp
    · simpa using hh
  · rw [h]
    rcases components_cases r with ⟨_, es⟩ | ⟨_, es⟩ | ⟨_, es⟩ <;> rw [es]
    · rw [List.filter_cons_of_pos (by simp)]; simp
    · rw [List.filter_cons_of_neg (by simp), hf]; simp [hh]
    · rw [hf]

theorem rooted_at {p : List Text} (h : ∀ n ∈ p, GoodName n) : At [] p (rooted p) := by
  unfold At rooted
  rw [List.nil_append]
  refine components_collect _ _ (by intro n e; cases e) ?_
  intro c hc
  obtain ⟨n, hn, rfl⟩ := List.mem_map.mp hc
  exact ⟨by rintro m e; cases e; exact h n hn, by simp, by simp⟩

/-- The label of a file leads to the file, inside of the project. -/
theorem pathLabel_leads {dir p : List Text} (hd : ∀ n ∈ dir, GoodName n) (hp : ∀ n ∈ p, GoodName n) (root : Bool) :
    ∃ l, pathLabel root dir p = some l ∧ within dir (components l) = some p ∧ (isAbsolute l = root) := by
  cases root with
  | true =>
    refine ⟨_, rfl, ?_, ?_⟩
    · rw [within_slash]
      have : components (rooted p) = .root :: p.map .normal := rooted_at hp
      rw [this, within, within_names]; rfl
    · rw [slash_absolute, isAbsolute_iff]
      have : components (rooted p) = .root :: p.map .normal := rooted_at hp
      rw [this]; rfl
  | false =>
    obtain ⟨r, h1, h2, h3⟩ := diff_within (rooted_at hd) (rooted_at hp)
    refine ⟨unixSlash r, ?_, ?_, ?_⟩
    · simp [pathLabel, h1]
    · rw [within_slash, h3]
    · rw [slash_absolute, h2]

theorem print_bound (n : Nat) : n < 10 ^ (print 10 n).length := by
  induction n using Nat.strongRecOn with
  | ind n ih =>
    rw [print_unfold]
    split
    · simpa using ‹n < 10›
    · rename_i h
      have := ih (n / 10) (by omega)
      rw [List.length_append, List.length_singleton, Nat.pow_succ]
      omega

open Classical in
/-- A list sorted by a comparison which is an order on its members. -/
theorem sorted_by {α : Type} {le : α → α → Bool} {r : α → α → Prop} {l : List α}
    (h : ∀ a ∈ l, ∀ b ∈ l, (le a b = true ↔ r a b)) (ht : ∀ a b c, r a b → r b c → r a c) (ho : ∀ a b, r a b ∨ r b a) :
    (l.mergeSort le).Pairwise r := by
  have hs : l.mergeSort le = l.mergeSort fun a b => decide (r a b) := by
    have := List.map_mergeSort (r := le) (s := fun a b => decide (r a b)) (f := id) (l := l) (by
      intro a ha b hb
      rw [Bool.eq_iff_iff, h a ha b hb]
      simp)
    simpa using this
  rw [hs]
  have := List.pairwise_mergeSort (le := fun a b => decide (r a b)) (by
    intro a b c h1 h2
    simp only [decide_eq_true_eq] at *
    exact ht a b c h1 h2) (by
    intro a b
    simpa using ho a b) l
  exact this.imp fun h => by simpa using h

theorem pathBefore_trans {a b c : Text} (h1 : PathBefore a b) (h2 : PathBefore b c) : PathBefore a c := by
  unfold PathBefore at *
  dsimp only at *
  rcases h1 with h1 | ⟨h1, h1'⟩ <;> rcases h2 with h2 | ⟨h2, h2'⟩
  · exact .inl (by omega)
  · exact .inl (by omega)
  · exact .inl (by omega)
  · exact .inr ⟨by omega, List.le_trans h1' h2'⟩

theorem pathBefore_total (a b : Text) : PathBefore a b ∨ PathBefore b a := by
  unfold PathBefore
  dsimp only
  rcases Nat.lt_trichotomy (a.takeWhile fun c => c = '.' ∨ c = '/').length (b.takeWhile fun c => c = '.' ∨ c = '/').length
    with h | h | h
  · exact .inl (.inl h)
  · rcases List.le_total a b with h' | h'
    · exact .inl (.inr ⟨h, h'⟩)
    · exact .inr (.inr ⟨h.symm, h'⟩)
  · exact .inr (.inl h)

/-- **C107.** Completing a path always gives a list: every file of the project but the one edited, each once, by a path
that leads to it from the edited file, or from the root if the typed path begins there; the inserted text is the path,
with quotes if there is no string yet. -/
theorem paths_listed (files : List (List Text)) (dir : List Text) (name typed : Text) (inText : Bool) (start stop : Nat)
    (hd : ∀ n ∈ dir, GoodName n) (hf : ∀ p ∈ files, ∀ n ∈ p, GoodName n) :
    ∃ items, completePath files dir name inText typed start stop = some items ∧
      (∃ lab : List Text → Text,
        (∀ p ∈ files, within dir (components (lab p)) = some p ∧ (isAbsolute (lab p) = true ↔ typed.head? = some '/')) ∧
        (items.map (·.label)).Perm ((files.filter fun p => p ≠ dir ++ [name]).map lab)) ∧
      (∀ it ∈ items, it.edit = ⟨start, stop, if inText then it.label else '"' :: it.label ++ ['"']⟩ ∧ it.extra = []) ∧
      (∀ out, Shown items out → out = items) ∧
      (items.map (·.label)).Pairwise (fun a b => if typed.head? = some '/' then a ≤ b else PathBefore a b) := by
  have hm : ∀ l : List (List Text), (∀ p ∈ l, ∀ n ∈ p, GoodName n) →
      l.mapM (pathLabel (typed.head? = some '/') dir) =
        some (l.map fun p => (pathLabel (typed.head? = some '/') dir p).getD []) := by
    intro l hl
    induction l with
    | nil => rfl
    | cons p l ih =>
      obtain ⟨x, hx, -⟩ := pathLabel_leads hd (hl p (List.mem_cons_self ..)) (typed.head? = some '/')
      rw [List.mapM_cons, ih fun q hq => hl q (List.mem_cons_of_mem _ hq), hx]
      simp [hx]
  have hfil : ∀ p ∈ files.filter fun p => p ≠ dir ++ [name], ∀ n ∈ p, GoodName n :=
    fun p hp => hf p (List.mem_filter.mp hp).1
  generalize hlab : (fun p => (pathLabel (typed.head? = some '/') dir p).getD []) = lab at hm
  have leads : ∀ p ∈ files, within dir (components (lab p)) = some p ∧ (isAbsolute (lab p) = true ↔ typed.head? = some '/') := by
    intro p hp
    obtain ⟨x, hx, h1, h2⟩ := pathLabel_leads hd (hf p hp) (typed.head? = some '/')
    have : lab p = x := by rw [← hlab]; simp only [hx]; rfl
    rw [this]
    exact ⟨h1, by rw [h2]; simp⟩
  generalize hl : ((files.filter fun p => p ≠ dir ++ [name]).map lab).mergeSort pathLe = ls
  have hperm : ls.Perm ((files.filter fun p => p ≠ dir ++ [name]).map lab) := by
    rw [← hl]; exact List.mergeSort_perm _ _
  have hmap : ∀ (g : Nat → Text → Item), (∀ i l, (g i l).label = l) → (ls.mapIdx g).map (·.label) = ls := by
    intro g hg
    apply List.ext_getElem
    · simp
    · intro i h1 h2
      simp [hg]
  have habs : ∀ l ∈ ls, (l.head? = some '/' ↔ typed.head? = some '/') := by
    intro l hls
    obtain ⟨p, hp, rfl⟩ := List.mem_map.mp (hperm.mem_iff.mp hls)
    rw [← (leads p (List.mem_filter.mp hp).1).2, isAbsolute]
    simp
  refine ⟨ls.mapIdx fun i l => ⟨l, some (pad (print 10 ls.length).length i),
    ⟨start, stop, if inText then l else ['"'] ++ l ++ ['"']⟩, []⟩, ?_, ⟨lab, leads, ?_⟩, ?_, ?_, ?_⟩
  · rw [completePath, hm _ hfil]
    simp only [Option.bind_eq_bind, Option.bind_some, Option.pure_def, hl]
  · rw [hmap _ fun _ _ => rfl]
    exact hperm
  · intro it hit
    obtain ⟨i, hi, rfl⟩ := List.mem_mapIdx.mp hit
    exact ⟨rfl, rfl⟩
  · intro out hout
    refine shown_unique ?_ (List.Perm.refl _) hout
    rw [List.pairwise_iff_getElem]
    intro i j hi hj hij
    have hj' : j < ls.length := by simpa using hj
    simp only [List.getElem_mapIdx]
    exact ⟨_, _, rfl, rfl, pad_lt hij (Nat.lt_trans hj' (print_bound _))⟩
  · rw [hmap _ fun _ _ => rfl, ← hl]
    apply sorted_by
    · intro a ha b hb
      have ha := habs a (hperm.mem_iff.mpr ha)
      have hb := habs b (hperm.mem_iff.mpr hb)
      by_cases h : typed.head? = some '/'
      · simp only [h, iff_true, if_true] at ha hb ⊢
        exact pathLe_absolute ha hb
      · simp only [h, iff_false, if_false] at ha hb ⊢
        exact pathLe_relative ha hb
    · intro a b c
      by_cases h : typed.head? = some '/'
      · simp only [h, if_true]
        exact List.le_trans
      · simp only [h, if_false]
        exact pathBefore_trans
    · intro a b
      by_cases h : typed.head? = some '/'
      · simp only [h, if_true]
        exact List.le_total a b
      · simp only [h, if_false]
        exact pathBefore_total a b

end Tinymist.Complete
