import Verif.Spec.Rename
import Verif.Props.Paths

/-! Following paths inside a project. -/

namespace Tinymist.Rename

open Paths Workspace

theorem within_append (d : List Text) (a b : List Comp) : within d (a ++ b) = (within d a).bind (within · b) := by
  induction a generalizing d with
  | nil => rfl
  | cons c a ih =>
    cases c with
    | root => exact ih _
    | cur => exact ih _
    | normal n => exact ih _
    | parent =>
      simp only [List.cons_append, within]
      split
      · rfl
      · exact ih _

theorem within_filter_cur (d : List Text) (cs : List Comp) : within d (cs.filter (· ≠ .cur)) = within d cs := by
  induction cs generalizing d with
  | nil => rfl
  | cons c cs ih =>
    cases c with
    | root => rw [List.filter_cons_of_pos (by simp)]; exact ih _
    | cur => rw [List.filter_cons_of_neg (by simp)]; exact ih _
    | normal n => rw [List.filter_cons_of_pos (by simp)]; exact ih _
    | parent =>
      rw [List.filter_cons_of_pos (by simp)]
      simp only [within]
      split
      · rfl
      · exact ih _

theorem within_names (d ns : List Text) : within d (ns.map .normal) = some (d ++ ns) := by
  induction ns generalizing d with
  | nil => simp [within]
  | cons n ns ih => rw [List.map_cons, within, ih]; simp

theorem walk_good {cs : List Comp} (hg : ∀ c ∈ cs, GoodComp c) {d : List Text} (hd : [] ∉ d) : [] ∉ walk d cs := by
  induction cs generalizing d with
  | nil => exact hd
  | cons c cs ih =>
    rw [walk_cons]
    apply ih (fun c hc => hg c (List.mem_cons_of_mem _ hc))
    cases c with
    | root => simp [follow]
    | cur => exact hd
    | parent => exact fun h => hd (List.dropLast_subset _ h)
    | normal n =>
      have := (hg (.normal n) (List.mem_cons_self ..) n rfl).1
      simp [follow, hd, Ne.symm this]

/-- Staying inside is not losing a name in front. -/
theorem within_iff_walk {cs : List Comp} (hg : ∀ c ∈ cs, GoodComp c) (hr : .root ∉ cs) (d e : List Text) :
    within d cs = some e ↔ walk ([] :: d) cs = [] :: e := by
  induction cs generalizing d with
  | nil => simp [within, walk]
  | cons c cs ih =>
    have hg' := fun c hc => hg c (List.mem_cons_of_mem _ hc)
    have hr' : .root ∉ cs := fun h => hr (List.mem_cons_of_mem _ h)
    cases c with
    | root => exact (hr (List.mem_cons_self ..)).elim
    | cur => exact ih hg' hr' d
    | normal n => exact ih hg' hr' (d ++ [n])
    | parent =>
      rw [walk_cons, within]
      cases d with
      | nil =>
        simp only [if_true, reduceCtorEq, false_iff]
        intro h
        have := walk_good hg' (d := []) (by simp)
        apply this
        have e1 : follow [[]] .parent = [] := rfl
        rw [e1] at h
        rw [h]
        exact List.mem_cons_self ..
      | cons x d =>
        rw [if_neg (by simp)]
        exact ih hg' hr' _

/-- Joining is following one path after the other. -/
theorem within_join (d : List Text) (a : Text) {b : Text} (hb : isAbsolute b = false) :
    within d (components (join a b)) = (within d (components a)).bind (within · (components b)) := by
  by_cases ha : a = []
  · subst ha
    rw [join, hb]
    simp [components_nil, within]
  · rw [components_join ha hb, within_append]
    congr
    funext x
    rw [within_filter_cur]

theorem within_cleanStep {d m m' : List Text} {out : List Comp} {c : Comp} (hc : c ≠ .root)
    (hout : .root ∉ out ∨ ∃ l, out = l ++ [.root] ∧ .root ∉ l) (h : within d out.reverse = some m)
    (hm : within m [c] = some m') :
    within d (cleanStep out c).reverse = some m' ∧
      (.root ∉ cleanStep out c ∨ ∃ l, cleanStep out c = l ++ [.root] ∧ .root ∉ l) := by
  have push : ∀ x, within d (x :: out).reverse = within m [x] := by
    intro x; rw [List.reverse_cons, within_append, h]; rfl
  have keep : ∀ x, x ≠ Comp.root → (.root ∉ x :: out ∨ ∃ l, x :: out = l ++ [.root] ∧ .root ∉ l) := by
    intro x hx
    rcases hout with h' | ⟨l, rfl, h'⟩
    · exact Or.inl (by simp [h', Ne.symm hx])
    · exact Or.inr ⟨x :: l, rfl, by simp [h', Ne.symm hx]⟩
  cases c with
  | root => exact (hc rfl).elim
  | cur => exact ⟨by cases hm; exact h, hout⟩
  | normal n => exact ⟨(push _).trans hm, keep _ (by simp)⟩
  | parent =>
    cases out with
    | nil => exact ⟨(push _).trans hm, keep _ (by simp)⟩
    | cons x out =>
      cases x with
      | root =>
        exfalso
        rcases hout with h' | ⟨l, e, h'⟩
        · exact h' (List.mem_cons_self ..)
        · cases l with
          | nil =>
            simp only [List.nil_append, List.cons.injEq, true_and] at e
            subst e
            simp only [List.reverse_cons, List.reverse_nil, List.nil_append, within, Option.some.injEq] at h
            subst h
            simp [within] at hm
          | cons y l => cases e; exact h' (List.mem_cons_self ..)
      | cur => exact ⟨(push _).trans hm, keep _ (by simp)⟩
      | parent => exact ⟨(push _).trans hm, keep _ (by simp)⟩
      | normal n =>
        refine ⟨?_, ?_⟩
        · rw [List.reverse_cons, within_append] at h
          simp only [cleanStep, popStep]
          cases hw : within d out.reverse with
          | none => rw [hw] at h; cases h
          | some k =>
            rw [hw] at h
            simp only [Option.bind_some, within, Option.some.injEq] at h
            subst h
            simp [within] at hm
            rw [hm]
        · rcases hout with h' | ⟨l, e, h'⟩
          · exact Or.inl fun hh => h' (List.mem_cons_of_mem _ hh)
          · cases l with
            | nil => cases e
            | cons y l => cases e; exact Or.inr ⟨l, rfl, fun hh => h' (List.mem_cons_of_mem _ hh)⟩

theorem within_cleanFold {d m e : List Text} {cs out : List Comp} (hc : .root ∉ cs)
    (hout : .root ∉ out ∨ ∃ l, out = l ++ [.root] ∧ .root ∉ l) (h : within d out.reverse = some m)
    (he : within m cs = some e) : within d (cs.foldl cleanStep out).reverse = some e := by
  induction cs generalizing m out with
  | nil => cases he; exact h
  | cons c cs ih =>
    have e1 : within m (c :: cs) = (within m [c]).bind (within · cs) := within_append m [c] cs
    rw [e1] at he
    cases hm : within m [c] with
    | none => rw [hm] at he; cases he
    | some m' =>
      rw [hm] at he
      have hcr : c ≠ .root := fun e => hc (e ▸ List.mem_cons_self ..)
      obtain ⟨h1, h2⟩ := within_cleanStep hcr hout h hm
      exact ih (fun h => hc (List.mem_cons_of_mem _ h)) h2 h1 he

theorem body_no_root (s : Text) : Comp.root ∉ body (Pages.split '/' s) := fun h => (body_inner h).1 rfl

/-- Cleaning a path that stays inside keeps where it leads. -/
theorem within_clean {d e : List Text} {s : Text} (h : within d (components s) = some e) :
    within d (components (clean s)) = some e := by
  have key : within d (cleanComps (components s)) = some e := by
    rw [cleanComps]
    rcases components_cases s with ⟨_, es⟩ | ⟨_, es⟩ | ⟨_, es⟩ <;> rw [es] at h ⊢
    · exact within_cleanFold (out := [.root]) (m := []) (body_no_root s) (Or.inr ⟨[], rfl, by simp⟩) rfl h
    · exact within_cleanFold (out := []) (m := d) (by simp [body_no_root s]) (Or.inl (by simp)) rfl h
    · exact within_cleanFold (out := []) (m := d) (body_no_root s) (Or.inl (by simp)) rfl h
  rw [components_clean]
  split
  · rename_i hn
    rw [hn] at key
    exact key
  · exact key

/-- Printing a cleaned path keeps its components. -/
theorem components_slash_clean (s : Text) : components (unixSlash (clean s)) = components (clean s) := by
  rw [unixSlash_def, components_clean]
  split
  · decide
  · rename_i hne
    have hcan := cleanComps_canon s
    have hnc : Comp.cur ∉ cleanComps (components s) := by
      rcases hcan with ⟨ns, e⟩ | ⟨k, ns, e⟩ <;> rw [e] <;> simp
    have hf : (cleanComps (components s)).filter (· ≠ Comp.cur) = cleanComps (components s) :=
      List.filter_eq_self.mpr fun c hc => by
        simp only [ne_eq, decide_not, Bool.not_eq_eq_eq_not, Bool.not_true, decide_eq_false_iff_not]
        exact fun e => hnc (e ▸ hc)
    rw [hf]
    have hg : ∀ c ∈ cleanComps (components s), GoodComp c := fun c => cleanComps_good
    rw [if_neg fun h => hne (collect_eq_nil hg h)]
    cases hc : cleanComps (components s) with
    | nil => exact (hne hc).elim
    | cons c cs =>
      rw [hc] at hg
      have ht := canon_tail (hc ▸ hcan)
      exact components_collect c cs (hg c (List.mem_cons_self ..))
        fun x hx => ⟨hg x (List.mem_cons_of_mem _ hx), ht x hx⟩

/-- typst's resolution, as far as it stays inside. -/
theorem vpath_within (cs : List Comp) (hr : .root ∉ cs) (d e : List Text) :
    (cs.foldl vpathStep (d.map Comp.normal).reverse).reverse = e.map .normal ↔ within d cs = some e := by
  have stuck : ∀ (cs out : List Comp), .parent ∈ out → .parent ∈ cs.foldl vpathStep out := by
    intro cs
    induction cs with
    | nil => exact fun _ h => h
    | cons c cs ih =>
      intro out h
      apply ih
      cases c with
      | root => exact h
      | cur => exact h
      | normal n => exact List.mem_cons_of_mem _ h
      | parent =>
        cases out with
        | nil => cases h
        | cons x out =>
          cases x with
          | normal n => simpa [vpathStep, vpathPop] using h
          | root => exact List.mem_cons_self ..
          | cur => exact List.mem_cons_self ..
          | parent => exact List.mem_cons_self ..
  induction cs generalizing d with
  | nil =>
    simp only [List.foldl_nil, List.reverse_reverse, within, Option.some.injEq]
    constructor
    · intro h
      have inj : ∀ (a b : List Text), a.map Comp.normal = b.map .normal → a = b := by
        intro a
        induction a with
        | nil => intro b h; cases b with
          | nil => rfl
          | cons y b => cases h
        | cons x a ih => intro b h; cases b with
          | nil => cases h
          | cons y b => simp only [List.map_cons, List.cons.injEq, Comp.normal.injEq] at h; rw [h.1, ih b h.2]
      exact inj _ _ h
    · rintro rfl; rfl
  | cons c cs ih =>
    have hr' : .root ∉ cs := fun h => hr (List.mem_cons_of_mem _ h)
    rw [List.foldl_cons]
    cases c with
    | root => exact (hr (List.mem_cons_self ..)).elim
    | cur => exact ih hr' d
    | normal n =>
      have : vpathStep (d.map Comp.normal).reverse (.normal n) = ((d ++ [n]).map Comp.normal).reverse := by
        simp [vpathStep]
      rw [this]
      exact ih hr' _
    | parent =>
      rw [within]
      rcases List.eq_nil_or_concat d with rfl | ⟨d', x, rfl⟩
      · simp only [if_true, reduceCtorEq, iff_false]
        intro h
        have hm : Comp.parent ∈ cs.foldl vpathStep [.parent] := stuck cs _ (List.mem_cons_self ..)
        rw [← List.mem_reverse] at hm
        have e1 : vpathStep (List.map Comp.normal []).reverse Comp.parent = [.parent] := rfl
        rw [e1] at h
        rw [h] at hm
        simp at hm
      · rw [List.concat_eq_append, if_neg (by simp)]
        have : vpathStep ((d' ++ [x]).map Comp.normal).reverse .parent = (d'.map Comp.normal).reverse := by
          simp [vpathStep, vpathPop]
        rw [this, List.dropLast_concat]
        exact ih hr' _

/-- What the analysis takes a path for is what it refers to. -/
theorem targets_iff (dir target : List Text) (s : Text) : targets dir target s = true ↔ Refers dir s target := by
  rw [targets, decide_eq_true_eq, resolveId, Refers]
  by_cases h : s.head? = some '@'
  · simp [h]
  · rw [if_neg h]
    rcases components_cases s with ⟨ha, es⟩ | ⟨ha, es⟩ | ⟨ha, es⟩
    · rw [if_pos ha, vpathNew, es]
      have := vpath_within _ (body_no_root s) [] target
      simp only [Option.some.injEq, List.foldl_cons, within, h, ne_eq, not_false_eq_true, true_and]
      exact this
    · rw [if_neg (by simp [ha]), es]
      have := vpath_within _ (body_no_root s) dir target
      simp only [Option.some.injEq, List.foldl_cons, within, h, ne_eq, not_false_eq_true, true_and]
      exact this
    · rw [if_neg (by simp [ha]), es]
      have := vpath_within _ (body_no_root s) dir target
      simp only [Option.some.injEq, h, ne_eq, not_false_eq_true, true_and]
      exact this

/-- The difference of two files of a project leads from one to the other inside the project. -/
theorem diff_within {root T T' : List Text} {left right : Text} (hl : At root T left) (hr : At root T' right) :
    ∃ r, diff right left = some r ∧ isAbsolute r = false ∧ within T (components r) = some T' := by
  have tidy : ∀ {e s}, At root e s → cleanForDiff s = s ∧ isAbsolute s = true := by
    intro e s h
    have h : components s = .root :: (root ++ e).map Comp.normal := h
    constructor
    · rw [cleanForDiff, if_neg]
      rw [h]; simp
    · rw [isAbsolute_iff, h]; rfl
  obtain ⟨l1, l2⟩ := tidy hl
  obtain ⟨r1, r2⟩ := tidy hr
  have strip : ∀ (root : List Text) (A B : List Comp),
      diffLoop [] (root.map Comp.normal ++ A) (root.map Comp.normal ++ B) = diffLoop [] A B := by
    intro root
    induction root with
    | nil => intro A B; rfl
    | cons n root ih =>
      intro A B
      rw [List.map_cons, List.cons_append, List.cons_append, diffLoop, if_pos ⟨rfl, rfl⟩, ih]
  obtain ⟨r, h1, h2, h3⟩ := diffLoop_names (T'.map .normal) T
  have good : ∀ c ∈ r, GoodComp c := by
    intro c hc
    rcases h2 c hc with rfl | h
    · intro n e; cases e
    · have hr' : components right = .root :: (root ++ T').map Comp.normal := hr
      exact components_good (s := right) (by rw [hr', List.map_append]; exact List.mem_cons_of_mem _ (List.mem_append_right _ h))
  have nr : ∀ c ∈ r, c ≠ .root ∧ c ≠ .cur := by
    intro c hc
    rcases h2 c hc with rfl | h
    · simp
    · obtain ⟨n, _, rfl⟩ := List.mem_map.mp h; simp
  have hcomp : components (collect r) = r := by
    cases r with
    | nil => rfl
    | cons c cs =>
      exact components_collect c cs (good c (List.mem_cons_self ..))
        fun x hx => ⟨good x (List.mem_cons_of_mem _ hx), nr x (List.mem_cons_of_mem _ hx)⟩
  refine ⟨collect r, ?_, ?_, ?_⟩
  · have hl' : components left = .root :: (root ++ T).map Comp.normal := hl
    have hr' : components right = .root :: (root ++ T').map Comp.normal := hr
    rw [diff, diffPaths, l1, r1, l2, r2, if_neg (by simp), hl', hr', diffLoop_root, List.map_append, List.map_append,
      strip, h1]
    rfl
  · cases hab : isAbsolute (collect r) with
    | false => rfl
    | true =>
      rw [isAbsolute_iff, hcomp] at hab
      exact ((nr _ (List.mem_of_mem_head? hab)).1 rfl).elim
  · rw [hcomp, within_iff_walk good fun h => (nr _ h).1 rfl]
    have := h3 [[]]
    rw [walk_names, walk_names] at this
    exact this

end Tinymist.Rename
