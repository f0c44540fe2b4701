import Verif.Spec.Packs

/-!
# Copying packages (C125), reading packages (C126)
-/

namespace Tinymist.Packs

open Spec

variable {D : Type}

/-! ## Maps -/

theorem mem_put {K : Type} [DecidableEq K] {m : List (K × D)} {k k' : K} {d d' : D} :
    (k', d') ∈ put m k d ↔ (k' = k ∧ d' = d) ∨ (k' ≠ k ∧ (k', d') ∈ m) := by
  simp only [put, List.mem_cons, List.mem_filter, decide_eq_true_eq, Prod.mk.injEq]
  constructor
  · rintro (h | ⟨h1, h2⟩)
    · exact .inl h
    · exact .inr ⟨h2, h1⟩
  · rintro (h | ⟨h1, h2⟩)
    · exact .inl h
    · exact .inr ⟨h2, h1⟩

theorem mem_puts {K : Type} [DecidableEq K] (es : List (K × D)) : ∀ (m : List (K × D)) (k : K) (d : D),
    (k, d) ∈ es.foldl (fun m e => put m e.1 e.2) m ↔ Last es k d ∨ ((k, d) ∈ m ∧ ∀ e ∈ es, e.1 ≠ k) := by
  induction es with
  | nil =>
    intro m k d
    constructor
    · intro h
      exact .inr ⟨h, by simp⟩
    · rintro (⟨pre, post, h, -⟩ | ⟨h, -⟩)
      · simp at h
      · exact h
  | cons e es ih =>
    intro m k d
    rw [List.foldl_cons, ih, mem_put]
    constructor
    · rintro (⟨pre, post, h, hp⟩ | ⟨⟨h1, h2⟩ | ⟨h1, h2⟩, hall⟩)
      · exact .inl ⟨e :: pre, post, by rw [h]; rfl, hp⟩
      · exact .inl ⟨[], es, by rw [h1, h2]; rfl, hall⟩
      · refine .inr ⟨h2, ?_⟩
        intro x hx
        rcases List.mem_cons.mp hx with rfl | hx
        · exact fun h => h1 h.symm
        · exact hall x hx
    · rintro (⟨pre, post, h, hp⟩ | ⟨h, hall⟩)
      · cases pre with
        | nil =>
          simp only [List.nil_append, List.cons.injEq] at h
          obtain ⟨rfl, rfl⟩ := h
          exact .inr ⟨.inl ⟨rfl, rfl⟩, hp⟩
        | cons a pre =>
          simp only [List.cons_append, List.cons.injEq] at h
          exact .inl ⟨pre, post, h.2, hp⟩
      · refine .inr ⟨.inr ⟨?_, h⟩, fun x hx => hall x (List.mem_cons_of_mem _ hx)⟩
        exact fun he => hall e List.mem_cons_self he.symm

/-- C125: copying a package into a map through a filter puts every file that passes there, with the contents it has
last, and leaves what the map has under other paths. -/
theorem map_copy (f : Path → Bool) (es m : List (Path × D)) (p : Path) (d : D) :
    (p, d) ∈ intoMap (filtered f es) m ↔
      (f p = true ∧ Last es p d) ∨ ((p, d) ∈ m ∧ ∀ e ∈ es, e.1 = p → f p = false) := by
  rw [intoMap, mem_puts]
  constructor
  · rintro (⟨pre, post, h, hp⟩ | ⟨h, hall⟩)
    · have hm : (p, d) ∈ filtered f es := by rw [h]; simp
      have hf : f p = true := (List.mem_filter.mp hm).2
      refine .inl ⟨hf, ?_⟩
      obtain ⟨l1, l2, rfl, h1, h2⟩ := List.filter_eq_append_iff.mp h
      obtain ⟨l3, l4, rfl, h3, h4, h5⟩ := List.filter_eq_cons_iff.mp h2
      refine ⟨l1 ++ l3, l4, by simp, ?_⟩
      intro e he hk
      exact hp e (by rw [← h5]; exact List.mem_filter.mpr ⟨he, by rw [hk]; exact hf⟩) hk
    · refine .inr ⟨h, ?_⟩
      intro e he hk
      cases hf : f p with
      | false => rfl
      | true => exact absurd hk (hall e (List.mem_filter.mpr ⟨he, by rw [hk]; exact hf⟩))
  · rintro (⟨hf, pre, post, h, hp⟩ | ⟨h, hall⟩)
    · refine .inl ⟨filtered f pre, filtered f post, ?_, ?_⟩
      · rw [h, filtered, List.filter_append, List.filter_cons_of_pos (by exact hf)]
        rfl
      · intro e he
        exact hp e (List.mem_filter.mp he).1
    · refine .inr ⟨h, ?_⟩
      intro e he hk
      have := List.mem_filter.mp he
      rw [hk, hall e this.1 hk] at this
      exact absurd this.2 (by decide)

/-! ## Directories -/

theorem follow_names (names : List Name) : ∀ at_ : Loc, (names.map Comp.name).foldl follow at_ = at_ ++ names := by
  induction names with
  | nil => intro at_; simp
  | cons n ns ih =>
    intro at_
    simp only [List.map_cons, List.foldl_cons, follow]
    rw [ih]
    simp

theorem join_plain {base : Loc} {p : Path} {names : List Name} (h : Plain p names) : join base p = base ++ names := by
  rw [join, h.1, h.2]
  exact follow_names names base

theorem intoDir_done (base : Loc) (es : List (Path × D)) : ∀ (disk disk' : Disk D), intoDir base es disk = (disk', .done) →
    disk' = (es.map (fun e => (join base e.1, e.2))).foldl (fun m e => put m e.1 e.2) disk := by
  induction es with
  | nil =>
    intro disk disk' h
    simp only [intoDir, Prod.mk.injEq] at h
    exact h.1.symm
  | cons e es ih =>
    intro disk disk' h
    obtain ⟨p, d⟩ := e
    rw [intoDir] at h
    split at h
    · exact ih _ _ h
    · simp at h

/-- C125: when a package whose paths are only names is copied into a directory and the copy runs to the end, the files
there are exactly those of the package, with the contents they have last, and those that were there and that the package
does not have. Whether it runs to the end or not, nothing outside the directory changes.

Partial: a path in the package may also be absolute or have `..` in it, and then the copy writes elsewhere
(`copy_escapes`); a copy that stops leaves what it has written. -/
theorem dir_copy_partial (base : Loc) (es : List (Path × D)) (disk disk' : Disk D) (fin : End)
    (hplain : ∀ e ∈ es, ∃ names, names ≠ [] ∧ Plain e.1 names) (h : intoDir base es disk = (disk', fin)) :
    (∀ at_ d, ¬ Inside base at_ → (Holds disk' at_ d ↔ Holds disk at_ d)) ∧
    (fin = .done → ∀ names d, Holds disk' (base ++ names) d ↔
      Last es ⟨false, names.map .name⟩ d ∨ (Holds disk (base ++ names) d ∧ ∀ e ∈ es, e.1 ≠ ⟨false, names.map .name⟩)) := by
  refine ⟨?_, ?_⟩
  · induction es generalizing disk with
    | nil =>
      simp only [intoDir, Prod.mk.injEq] at h
      intro at_ d _
      rw [h.1]
    | cons e es ih =>
      obtain ⟨p, d0⟩ := e
      intro at_ d ho
      rw [intoDir] at h
      split at h
      · rw [ih _ (fun e he => hplain e (List.mem_cons_of_mem _ he)) h at_ d ho]
        obtain ⟨names, hne, hp⟩ := hplain _ List.mem_cons_self
        have hp : Plain p names := hp
        rw [Holds, mem_put, join_plain hp]
        constructor
        · rintro (⟨h1, -⟩ | ⟨-, h2⟩)
          · exact absurd ⟨names, hne, h1⟩ ho
          · exact h2
        · intro h2
          exact .inr ⟨fun h1 => ho ⟨names, hne, h1⟩, h2⟩
      · simp only [Prod.mk.injEq] at h
        rw [h.1]
  · rintro rfl names d
    rw [Holds, intoDir_done base es disk disk' h, mem_puts]
    have key : ∀ e ∈ es, (join base e.1 = base ++ names ↔ e.1 = ⟨false, names.map .name⟩) := by
      intro e he
      obtain ⟨ns, -, hp⟩ := hplain e he
      rw [join_plain hp]
      constructor
      · intro h1
        have h2 := List.append_cancel_left h1
        subst h2
        obtain ⟨⟨a, c⟩, x⟩ := e
        obtain ⟨rfl, rfl⟩ := hp
        rfl
      · intro h1
        rw [h1] at hp
        have h2 : names.map Comp.name = ns.map Comp.name := hp.2
        have inj : ∀ a b : List Name, a.map Comp.name = b.map Comp.name → a = b := by
          intro a
          induction a with
          | nil => intro b hb; cases b with
            | nil => rfl
            | cons _ _ => simp at hb
          | cons x a iha => intro b hb; cases b with
            | nil => simp at hb
            | cons y b =>
              simp only [List.map_cons, List.cons.injEq, Comp.name.injEq] at hb
              rw [hb.1, iha b hb.2]
        rw [inj _ _ h2]
    constructor
    · rintro (⟨pre, post, h1, h2⟩ | ⟨h1, h2⟩)
      · obtain ⟨l1, l2, rfl, rfl, h4⟩ := List.map_eq_append_iff.mp h1
        obtain ⟨e, l3, rfl, h5, rfl⟩ := List.map_eq_cons_iff.mp h4
        simp only [Prod.mk.injEq] at h5
        have h6 := (key e (by simp)).mp h5.1
        refine .inl ⟨l1, l3, ?_, ?_⟩
        · rw [← h6, ← h5.2]
        · intro x hx hk
          exact h2 _ (List.mem_map_of_mem hx) ((key x (by simp [hx])).mpr hk)
      · refine .inr ⟨h1, ?_⟩
        intro e he hk
        exact h2 _ (List.mem_map_of_mem he) ((key e he).mpr hk)
    · rintro (⟨pre, post, rfl, h2⟩ | ⟨h1, h2⟩)
      · refine .inl ⟨pre.map (fun e => (join base e.1, e.2)), post.map (fun e => (join base e.1, e.2)), ?_, ?_⟩
        · rw [List.map_append, List.map_cons, (key (⟨false, names.map .name⟩, d) (by simp)).mpr rfl]
        · intro x hx
          obtain ⟨e, he, rfl⟩ := List.mem_map.mp hx
          exact fun hk => h2 e he ((key e (by simp [he])).mp hk)
      · refine .inr ⟨h1, ?_⟩
        intro x hx
        obtain ⟨e, he, rfl⟩ := List.mem_map.mp hx
        exact fun hk => h2 e he ((key e he).mp hk)

/-- The two files of a small package. -/
def samplePack : List (Path × Nat) :=
  [(⟨false, [.name ['a']]⟩, 1), (⟨false, [.name ['s'], .name ['b']]⟩, 2), (⟨false, [.name ['a']]⟩, 3)]

example : intoDir [['p']] samplePack [([['p'], ['k']], 9), ([['q']], 8)] =
    ([([['p'], ['a']], 3), ([['p'], ['s'], ['b']], 2), ([['p'], ['k']], 9), ([['q']], 8)], .done) := by decide

example : ∀ e ∈ samplePack, ∃ names, names ≠ [] ∧ Plain e.1 names := by
  intro e he
  simp only [samplePack, List.mem_cons, List.not_mem_nil, or_false] at he
  rcases he with rfl | rfl | rfl
  · exact ⟨[['a']], by simp, rfl, rfl⟩
  · exact ⟨[['s'], ['b']], by simp, rfl, rfl⟩
  · exact ⟨[['a']], by simp, rfl, rfl⟩

/-- C125, what does not hold: a package whose paths are absolute or go up writes outside the directory it is copied
into, and replaces what is there. -/
theorem copy_escapes (base : Loc) (n : Name) (x d : D) (hb : base ≠ []) (hn : base.dropLast ++ [n] ≠ base)
    (hh : [n].isPrefixOf base = false) :
    (∃ p, intoDir base [(p, d)] [(base.dropLast ++ [n], x)] = ([(base.dropLast ++ [n], d)], .done) ∧
      ¬ Inside base (base.dropLast ++ [n])) ∧
    (∃ p, intoDir base [(p, d)] [([n], x)] = ([([n], d)], .done) ∧ ¬ Inside base [n]) := by
  have len : (base.dropLast ++ [n]).length = base.length := by
    have := List.length_pos_iff.mpr hb
    simp only [List.length_append, List.length_dropLast, List.length_singleton]
    omega
  constructor
  · refine ⟨⟨false, [.up, .name n]⟩, ?_, ?_⟩
    · have hc : creatable [(base.dropLast ++ [n], x)] base (base.dropLast ++ [n]) = true := by
        have : List.isPrefixOf (base.dropLast ++ [n]) base = false := by
          cases hp : List.isPrefixOf (base.dropLast ++ [n]) base with
          | false => rfl
          | true => exact absurd ((List.isPrefixOf_iff_prefix.mp hp).eq_of_length len) hn
        simp [creatable, this]
      have hj : join base ⟨false, [.up, .name n]⟩ = base.dropLast ++ [n] := rfl
      rw [intoDir, hj, if_pos hc]
      simp [put, intoDir]
    · rintro ⟨names, hne, h⟩
      have := congrArg List.length h
      rw [len, List.length_append] at this
      have := List.length_pos_iff.mpr hne
      omega
  · refine ⟨⟨true, [.name n]⟩, ?_, ?_⟩
    · have hc : creatable [([n], x)] base [n] = true := by
        simp [creatable, hh]
      have hj : join base ⟨true, [.name n]⟩ = [n] := rfl
      rw [intoDir, hj, if_pos hc]
      simp [put, intoDir]
    · rintro ⟨names, hne, h⟩
      have := congrArg List.length h
      rw [List.length_append] at this
      have h1 := List.length_pos_iff.mpr hne
      have h2 := List.length_pos_iff.mpr hb
      simp only [List.length_singleton] at this
      omega

example : (∃ p, intoDir [['h'], ['p']] [(p, 1)] [([['h'], ['q']], 7)] = ([([['h'], ['q']], 1)], .done) ∧
    ¬ Inside [['h'], ['p']] [['h'], ['q']]) :=
  (copy_escapes [['h'], ['p']] ['q'] 7 1 (by decide) (by decide) (by decide)).1

/-- C125, what does not hold: a copy that cannot write a file leaves the files it has written before. -/
theorem copy_stops (base : Loc) (n m : Name) (d e : D) :
    intoDir base [(⟨false, [.name n]⟩, d), (⟨false, [.name n, .name m]⟩, e)] [] = ([(base ++ [n], d)], .failed) := by
  have h1 : join base ⟨false, [.name n]⟩ = base ++ [n] := rfl
  have h2 : join base ⟨false, [.name n, .name m]⟩ = base ++ [n] ++ [m] := rfl
  have hb : ∀ n : Name, List.isPrefixOf (base ++ [n]) base = false := by
    intro n
    cases hp : List.isPrefixOf (base ++ [n]) base with
    | false => rfl
    | true =>
      have := (List.isPrefixOf_iff_prefix.mp hp).length_le
      simp only [List.length_append, List.length_singleton] at this
      omega
  have c1 : creatable ([] : Disk D) base (base ++ [n]) = true := by simp [creatable, hb]
  have c2 : creatable (put ([] : Disk D) (base ++ [n]) d) base (base ++ [n] ++ [m]) = false := by
    have : List.isPrefixOf (base ++ [n]) (base ++ [n] ++ [m]) = true :=
      List.isPrefixOf_iff_prefix.mpr (List.prefix_append _ _)
    have ne : base ++ [n] ≠ base ++ [n] ++ [m] := fun h => by
      have := congrArg List.length h
      simp only [List.length_append, List.length_singleton] at this
      omega
    simp only [creatable, put, List.filter_nil, List.all_cons, this, ne, ne_eq, not_false_eq_true, decide_true,
      Bool.and_self, Bool.not_true, Bool.false_and]
  rw [intoDir, h1, if_pos c1, intoDir, h2, if_neg (by rw [c2]; decide)]
  rfl

/-! ## Reading -/

theorem hidden_iff (n : Name) : hidden n = true ↔ Dotted n := by
  unfold hidden Dotted
  split
  · simp
  · rename_i h
    simp only [Bool.false_eq_true, false_iff, not_exists]
    exact fun r hr => h r hr

theorem mem_below {base : Loc} {disk : Disk D} {f : Path → Bool} {p : Path} {d : D} :
    (p, d) ∈ (disk.filterMap (below base)).filter (fun e => f e.1) ↔
      f p = true ∧ ∃ names, Plain p names ∧ (∀ n ∈ names, ¬ Dotted n) ∧ Holds disk (base ++ names) d := by
  rw [List.mem_filter, List.mem_filterMap, and_comm]
  refine and_congr_right fun _ => ?_
  constructor
  · rintro ⟨⟨at_, x⟩, hm, hb⟩
    unfold below at hb
    split at hb
    · rename_i hc
      simp only [Bool.and_eq_true, Bool.not_eq_true', List.any_eq_false] at hc
      obtain ⟨names, hat⟩ := List.isPrefixOf_iff_prefix.mp hc.1
      have hat : base ++ names = at_ := hat
      subst hat
      simp only [List.drop_left, Option.some.injEq, Prod.mk.injEq] at hb hc
      obtain ⟨rfl, rfl⟩ := hb
      exact ⟨names, ⟨rfl, rfl⟩, fun n hn hd => hc.2 n hn ((hidden_iff n).mpr hd), hm⟩
    · simp at hb
  · rintro ⟨names, ⟨h1, h2⟩, hn, hm⟩
    refine ⟨_, hm, ?_⟩
    have hc : (base.isPrefixOf (base ++ names) && !((base ++ names).drop base.length).any hidden) = true := by
      rw [List.drop_left, List.isPrefixOf_iff_prefix.mpr (List.prefix_append _ _)]
      simp only [Bool.true_and, Bool.not_eq_true', List.any_eq_false]
      exact fun n hm hh => hn n hm ((hidden_iff n).mp hh)
    rw [below, if_pos hc, List.drop_left]
    obtain ⟨a, c⟩ := p
    obtain rfl : a = false := h1
    obtain rfl : c = _ := h2
    rfl

/-- C126: reading a directory hands out exactly the files below it that pass the filter and have no name with a dot in
front on their way, under their path from there and with their contents.

Partial: the base itself must not have a dot in front of its name (`dotted_base_empty`). -/
theorem read_dir_partial (base : Loc) (f : Path → Bool) (disk : Disk D)
    (hb : ∀ n, base.getLast? = some n → ¬ Dotted n) (p : Path) (d : D) :
    (p, d) ∈ readDir base f disk ↔
      f p = true ∧ ∃ names, Plain p names ∧ (∀ n ∈ names, ¬ Dotted n) ∧ Holds disk (base ++ names) d := by
  rw [readDir.eq_def]
  cases hl : base.getLast? with
  | none => exact mem_below
  | some n =>
    have : ¬ hidden n = true := fun h => hb n hl ((hidden_iff n).mp h)
    simp only [this, Bool.false_eq_true, if_false]
    exact mem_below

/-- C126, what does not hold: a directory that has a dot in front of its own name reads as a package without files. -/
theorem dotted_base_empty (up : Loc) (rest : Name) (f : Path → Bool) (disk : Disk D) :
    readDir (up ++ ['.' :: rest]) f disk = [] := by
  simp [readDir, hidden]

example : readDir [['h'], ['p']] (fun _ => true) [([['h'], ['p'], ['a'], ['b']], 1), ([['h'], ['p'], ['.', 'g'], ['b']], 2),
    ([['h'], ['q']], 3)] = [(⟨false, [.name ['a'], .name ['b']]⟩, 1)] := by decide

/-- C126: reading an archive hands out exactly its plain files, in order, with their contents.

Partial: a name that does not fit into the header of its entry is cut off (`long_names_cut`). -/
theorem read_archive_partial (es : List (Entry D)) (hlong : ∀ e ∈ es, e.long = none) (p : Path) (d : D) :
    (p, d) ∈ readArchive es ↔ ∃ e ∈ es, e.plain = true ∧ named e p ∧ e.data = d := by
  rw [readArchive, List.mem_filterMap]
  constructor
  · rintro ⟨e, he, h⟩
    split at h
    · rename_i hp
      simp only [Option.some.injEq, Prod.mk.injEq] at h
      exact ⟨e, he, hp, .inl ⟨hlong e he, h.1.symm⟩, h.2⟩
    · simp at h
  · rintro ⟨e, he, hp, hn, rfl⟩
    refine ⟨e, he, ?_⟩
    rcases hn with ⟨-, rfl⟩ | hn
    · rw [if_pos hp]
    · rw [hlong e he] at hn
      simp at hn

/-- C126, what does not hold: two files whose names agree on what fits into the header become one when the archive is
copied, and it is under neither of their names. -/
theorem long_names_cut (cut a b : Path) (x y : D) (ha : a ≠ cut) (hb : b ≠ cut) :
    let es : List (Entry D) := [⟨cut, some a, true, x⟩, ⟨cut, some b, true, y⟩]
    intoMap (readArchive es) [] = [(cut, y)] ∧ (∀ e ∈ es, ¬ named e cut) := by
  refine ⟨?_, ?_⟩
  · simp [readArchive, intoMap, put]
  · intro e he
    simp only [List.mem_cons, List.not_mem_nil, or_false] at he
    rcases he with rfl | rfl
    · rintro (⟨h, -⟩ | h)
      · simp at h
      · simp only [Option.some.injEq] at h
        exact ha h
    · rintro (⟨h, -⟩ | h)
      · simp at h
      · simp only [Option.some.injEq] at h
        exact hb h

theorem last_exists {K : Type} [DecidableEq K] (l : List (K × D)) (k : K) (d : D) (hm : (k, d) ∈ l) : ∃ d', Last l k d' := by
  induction l with
  | nil => simp at hm
  | cons e r ih =>
    by_cases hr : ∃ x, Last r k x
    · obtain ⟨x, pre, post, he, hp⟩ := hr
      exact ⟨x, e :: pre, post, by rw [he]; rfl, hp⟩
    · have hn : ∀ x ∈ r, x.1 ≠ k := by
        rintro ⟨k', x⟩ hx rfl
        have : ∀ l : List (K × D), (∃ x ∈ l, x.1 = k') → ∃ d', Last l k' d' := by
          intro l
          induction l with
          | nil => simp
          | cons y l ihl =>
            intro _
            by_cases hl : ∃ x ∈ l, x.1 = k'
            · obtain ⟨z, pre, post, he, hp⟩ := ihl hl
              exact ⟨z, y :: pre, post, by rw [he]; rfl, hp⟩
            · rename_i hy
              obtain ⟨w, hw, hk⟩ := hy
              rcases List.mem_cons.mp hw with rfl | hw
              · obtain ⟨a, b⟩ := w
                obtain rfl : a = k' := hk
                exact ⟨b, [], l, rfl, fun e he hk => hl ⟨e, he, hk⟩⟩
              · exact absurd ⟨w, hw, hk⟩ hl
        exact hr (this r ⟨_, hx, rfl⟩)
      rcases List.mem_cons.mp hm with h | h
      · exact ⟨d, [], r, by rw [h]; rfl, hn⟩
      · exact absurd rfl (hn _ h)

/-- C126: copying a directory into a map gives exactly the files that reading it hands out: those below it that pass the
filter and have no name with a dot in front. -/
theorem dir_to_map (base : Loc) (f : Path → Bool) (disk : Disk D) (hs : Sound disk)
    (hb : ∀ n, base.getLast? = some n → ¬ Dotted n) (names : List Name) (d : D) :
    ((⟨false, names.map .name⟩ : Path), d) ∈ intoMap (readDir base f disk) [] ↔
      f ⟨false, names.map .name⟩ = true ∧ (∀ n ∈ names, ¬ Dotted n) ∧ Holds disk (base ++ names) d := by
  have inj : ∀ a b : List Name, a.map Comp.name = b.map Comp.name → a = b := by
    intro a b h
    have := congrArg (List.filterMap (fun c => match c with | Comp.name n => some n | _ => none)) h
    simpa [List.filterMap_map, Function.comp_def] using this
  have uniq : ∀ {k : Loc} {x y : D}, (k, x) ∈ disk → (k, y) ∈ disk → x = y := by
    intro k x y hx hy
    unfold Sound at hs
    revert hx hy hs
    induction disk with
    | nil => simp
    | cons e r ih =>
      intro hs hx hy
      rw [List.map_cons, List.nodup_cons] at hs
      rcases List.mem_cons.mp hx with h1 | h1 <;> rcases List.mem_cons.mp hy with h2 | h2
      · rw [← h1] at h2
        simp only [Prod.mk.injEq] at h2
        exact h2.2.symm
      · exact absurd (List.mem_map_of_mem (f := (·.1)) h2) (by rw [← h1] at hs; exact hs.1)
      · exact absurd (List.mem_map_of_mem (f := (·.1)) h1) (by rw [← h2] at hs; exact hs.1)
      · exact ih hs.2 h1 h2
  rw [intoMap, mem_puts]
  have member : ∀ x, ((⟨false, names.map .name⟩ : Path), x) ∈ readDir base f disk ↔
      f ⟨false, names.map .name⟩ = true ∧ (∀ n ∈ names, ¬ Dotted n) ∧ Holds disk (base ++ names) x := by
    intro x
    rw [read_dir_partial base f disk hb]
    constructor
    · rintro ⟨h1, ns, hp, h2, h3⟩
      obtain rfl := inj _ _ hp.2
      exact ⟨h1, h2, h3⟩
    · rintro ⟨h1, h2, h3⟩
      exact ⟨h1, names, ⟨rfl, rfl⟩, h2, h3⟩
  rw [← member d]
  constructor
  · rintro (⟨pre, post, h, -⟩ | ⟨h, -⟩)
    · rw [h]
      simp
    · simp at h
  · intro h
    refine .inl ?_
    obtain ⟨d', hl⟩ := last_exists _ _ d h
    have h' : ((⟨false, names.map .name⟩ : Path), d') ∈ readDir base f disk := by
      obtain ⟨pre, post, he, -⟩ := hl
      rw [he]
      simp
    rw [uniq ((member d).mp h).2.2 ((member d').mp h').2.2]
    exact hl

example : intoMap (filtered (fun p => p.comps.length = 1) samplePack) [(⟨false, [.name ['k']]⟩, 9)] =
    [(⟨false, [.name ['a']]⟩, 3), (⟨false, [.name ['k']]⟩, 9)] := by decide

example : readArchive [(⟨⟨false, [.name ['a']]⟩, none, true, 1⟩ : Entry Nat), ⟨⟨false, [.name ['s']]⟩, none, false, 2⟩] =
    [(⟨false, [.name ['a']]⟩, 1)] := by decide

example : (∀ n, ([['h'], ['p']] : Loc).getLast? = some n → ¬ Dotted n) ∧
    Sound [(([['h'], ['p'], ['a']] : Loc), 1), ([['h'], ['q']], 3)] := by
  refine ⟨?_, by unfold Sound; decide⟩
  intro n hn
  simp only [List.getLast?_cons_cons, List.getLast?_singleton, Option.some.injEq] at hn
  rintro ⟨r, rfl⟩
  simp at hn

end Tinymist.Packs
