import Verif.Spec.Exporting
/-! Paths, gaps and colours of exports. -/

namespace Tinymist.Exporting
open Pages (Transform)
open Spec

theorem rev_span (p : Char → Bool) (l : Text) :
    l = (l.reverse.dropWhile p).reverse ++ (l.reverse.takeWhile p).reverse := by
  rw [← List.reverse_append, List.takeWhile_append_dropWhile, List.reverse_reverse]

theorem seg_split (p : Text) : p = dirSlash p ++ lastSeg p := rev_span _ p

theorem takeWhile_none {q : Char → Bool} {a : Text} (c : Char) (b : Text) (ha : ∀ x ∈ a, q x = true) (hc : q c = false) :
    (a ++ c :: b).takeWhile q = a := by
  induction a with
  | nil => simp [hc]
  | cons x a ih =>
    simp only [List.cons_append, List.takeWhile_cons, ha x (List.mem_cons_self ..), if_true]
    rw [ih fun y hy => ha y (List.mem_cons_of_mem _ hy)]

theorem dropWhile_none {q : Char → Bool} {a : Text} (c : Char) (b : Text) (ha : ∀ x ∈ a, q x = true) (hc : q c = false) :
    (a ++ c :: b).dropWhile q = c :: b := by
  induction a with
  | nil => simp [hc]
  | cons x a ih =>
    simp only [List.cons_append, List.dropWhile_cons, ha x (List.mem_cons_self ..), if_true]
    exact ih fun y hy => ha y (List.mem_cons_of_mem _ hy)

theorem notin_rev {c : Char} {n : Text} (h : c ∉ n) : ∀ x ∈ n.reverse, decide (x ≠ c) = true := by
  intro x hx
  have : x ∈ n := List.mem_reverse.mp hx
  simp only [decide_eq_true_eq]
  rintro rfl
  exact h this

theorem rev_cons (a : Text) (c : Char) (b : Text) : (a ++ c :: b).reverse = b.reverse ++ c :: a.reverse := by simp

theorem lastSeg_at {dir name : Text} (h : '/' ∉ name) : lastSeg (dir ++ '/' :: name) = name := by
  unfold lastSeg
  rw [rev_cons, takeWhile_none _ _ (notin_rev h) (by decide), List.reverse_reverse]

theorem dirSlash_at {dir name : Text} (h : '/' ∉ name) : dirSlash (dir ++ '/' :: name) = dir ++ ['/'] := by
  unfold dirSlash
  rw [rev_cons, dropWhile_none _ _ (notin_rev h) (by decide)]
  simp

theorem dropWhile_all {q : Char → Bool} {a : Text} (ha : ∀ x ∈ a, q x = true) : a.dropWhile q = [] := by
  induction a with
  | nil => rfl
  | cons x a ih =>
    rw [List.dropWhile_cons, if_pos (ha x (List.mem_cons_self ..))]
    exact ih fun y hy => ha y (List.mem_cons_of_mem _ hy)

theorem stem_cut {s x : Text} (hs : s ≠ []) (hx : '.' ∉ x) : stem (s ++ '.' :: x) = s := by
  unfold stem
  rw [rev_cons, dropWhile_none _ _ (notin_rev hx) (by decide)]
  simp [hs]

theorem stem_hidden {x : Text} (hx : '.' ∉ x) : stem ('.' :: x) = '.' :: x := by
  unfold stem
  have := rev_cons [] '.' x
  rw [List.nil_append] at this
  rw [this, dropWhile_none _ _ (notin_rev hx) (by decide)]
  simp

theorem stem_plain {n : Text} (hn : '.' ∉ n) : stem n = n := by
  unfold stem
  rw [dropWhile_all (notin_rev hn)]

theorem stem_of {n s : Text} (h : Stem n s) : stem n = s := by
  cases h with
  | cut _ x hs hx => exact stem_cut hs hx
  | hidden x hx => exact stem_hidden hx
  | plain _ hn => exact stem_plain hn

/-- A character that is in a text has a last place in it. -/
theorem last_split {c : Char} : ∀ {n : Text}, c ∈ n → ∃ a b, n = a ++ c :: b ∧ c ∉ b := by
  intro n
  induction n with
  | nil => intro h; cases h
  | cons x n ih =>
    intro h
    by_cases hc : c ∈ n
    · obtain ⟨a, b, rfl, hb⟩ := ih hc
      exact ⟨x :: a, b, rfl, hb⟩
    · cases h with
      | head => exact ⟨[], n, rfl, hc⟩
      | tail _ h => exact absurd h hc

theorem stem_exists (n : Text) : Stem n (stem n) := by
  by_cases h : '.' ∈ n
  · obtain ⟨a, b, rfl, hb⟩ := last_split h
    by_cases ha : a = []
    · subst ha
      rw [List.nil_append, stem_hidden hb]
      exact .hidden b hb
    · rw [stem_cut ha hb]
      exact .cut a b ha hb
  · rw [stem_plain h]
    exact .plain n h

theorem absolute_iff {p : Text} : isRelative p = false ↔ ∃ r, p = '/' :: r := by
  constructor
  · intro h
    unfold isRelative at h
    split at h
    · exact ⟨_, rfl⟩
    · cases h
  · rintro ⟨r, rfl⟩
    rfl

theorem target_of {q ext p : Text} (h : Target q ext p) : withExtension q ext = p := by
  cases h with
  | file dir name _ s hn hs h =>
    unfold withExtension
    rw [lastSeg_at hs, dirSlash_at hs, if_neg hn, stem_of h]
    simp [dotted]
  | slash dir _ =>
    unfold withExtension
    rw [lastSeg_at (by simp), if_pos rfl]

theorem target_exists {q : Text} (ext : Text) (h : isRelative q = false) : Target q ext (withExtension q ext) := by
  obtain ⟨r, rfl⟩ := absolute_iff.mp h
  obtain ⟨a, b, hab, hb⟩ := last_split (c := '/') (n := '/' :: r) (List.mem_cons_self ..)
  rw [hab]
  by_cases hn : b = []
  · subst hn
    have h2 : Target (a ++ ['/']) ext (a ++ ['/']) := .slash a ext
    rw [target_of h2]
    exact h2
  · have h2 := Target.file a b ext (stem b) hn hb (stem_exists b)
    rw [target_of h2]
    exact h2

theorem target_iff {q ext p : Text} (h : isRelative q = false) : withExtension q ext = p ↔ Target q ext p :=
  ⟨fun e => e ▸ target_exists ext h, target_of⟩

theorem target_absolute {q ext p : Text} (h : Target q ext p) (hq : isRelative q = false) : isRelative p = false := by
  cases h with
  | slash => exact hq
  | file dir name _ s hn hs h =>
    cases dir with
    | nil => rfl
    | cons c d =>
      obtain ⟨r, hr⟩ := absolute_iff.mp hq
      injection hr with h1 h2
      subst h1
      rfl

theorem inDir_iff {p d : Text} (h : isRelative p = false) : parentDir p = some d ↔ InDir p d := by
  constructor
  · intro hp
    obtain ⟨r, rfl⟩ := absolute_iff.mp h
    obtain ⟨a, b, hab, hb⟩ := last_split (c := '/') (n := '/' :: r) (List.mem_cons_self ..)
    rw [hab] at hp ⊢
    unfold parentDir at hp
    rw [lastSeg_at hb, dirSlash_at hb] at hp
    split at hp
    · cases hp
    · rename_i hn
      split at hp
      · rename_i ha
        cases hp
        cases a with
        | nil => exact .top b hn hb
        | cons x a => cases a <;> simp at ha
      · rename_i ha
        simp at hp
        subst hp
        exact .sub a b (by rintro rfl; exact ha rfl) hn hb
  · intro hd
    cases hd with
    | top name hn hs =>
      unfold parentDir
      have h1 := lastSeg_at (dir := []) hs
      have h2 := dirSlash_at (dir := []) hs
      rw [List.nil_append] at h1 h2
      rw [h1, h2, if_neg hn]
      rfl
    | sub name dir hd hn hs =>
      unfold parentDir
      rw [lastSeg_at hs, dirSlash_at hs, if_neg hn, if_neg]
      · simp
      · cases d with
        | nil => exact absurd rfl hd
        | cons x a => cases a <;> simp

theorem extension_eq (k : Kind) : k.extension = extensionOf k := by
  cases k with
  | query f e s fi o => cases e <;> rfl
  | _ => rfl

section
variable {Pg H El V Len B : Type} {t : Tools Pg H El V Len B}

theorem pagedDoc_iff {doc : Doc Pg H} {ps : List Pg} : pagedDoc t doc = some ps ↔ PagesOf t doc ps := by
  constructor
  · intro h
    cases doc with
    | paged qs => cases h; exact .own _
    | html x => exact .again x ps h
  · intro h
    cases h with
    | own => rfl
    | again x _ hc => exact hc

theorem htmlDoc_iff {doc : Doc Pg H} {h : H} : htmlDoc t doc = some h ↔ HtmlOf t doc h := by
  constructor
  · intro e
    cases doc with
    | paged qs => exact .again qs h e
    | html x => cases e; exact .own _
  · intro e
    cases e with
    | own => rfl
    | again _ _ hc => exact hc

theorem isFirst_iff {ts : List Transform} : Pages.isFirst ts = true ↔ OnlyFirst ts := by
  unfold Pages.isFirst OnlyFirst
  rw [List.any_eq_true]
  constructor
  · rintro ⟨x, hx, h⟩
    cases x with
    | pages rs =>
      have h2 : (rs == [Pages.Pages.FIRST]) = true := h
      rw [beq_iff_eq] at h2
      subst h2
      exact hx
    | merge => cases h
    | script => cases h
    | pretty => cases h
  · intro h
    exact ⟨_, h, by decide⟩

theorem isFirst_not {ts : List Transform} : Pages.isFirst ts = false ↔ ¬OnlyFirst ts := by
  rw [← isFirst_iff]
  simp

/-- The loop over transforms, with the gap so far. -/
theorem mergedGap_iff (ts : List Transform) : ∀ (acc g : Len), mergedGap t acc ts = some g ↔
    ((∀ x ∈ ts, ¬IsMerge x) ∧ g = acc) ∨ ((∃ x ∈ ts, IsMerge x) ∧ GapOf t ts g) := by
  induction ts with
  | nil =>
    intro acc g
    constructor
    · intro h
      cases h
      exact .inl ⟨by simp, rfl⟩
    · rintro (⟨_, rfl⟩ | ⟨⟨x, hx, _⟩, _⟩)
      · rfl
      · cases hx
  | cons x ts ih =>
    intro acc g
    by_cases hm : ∃ y ∈ ts, IsMerge y
    · -- a later one decides
      have key : ∀ acc', mergedGap t acc' ts = some g ↔ GapOf t ts g := by
        intro acc'
        rw [ih acc' g]
        constructor
        · rintro (⟨h, _⟩ | ⟨_, h⟩)
          · obtain ⟨y, hy, hy2⟩ := hm
            exact absurd hy2 (h y hy)
          · exact h
        · exact fun h => .inr ⟨hm, h⟩
      have ext : GapOf t (x :: ts) g ↔ GapOf t ts g ∧ ∀ g', x = .merge (some g') → (t.length g').isSome := by
        constructor
        · intro h
          cases h with
          | default h =>
            obtain ⟨y, hy, hy2⟩ := hm
            exact absurd hy2 (h y (List.mem_cons_of_mem _ hy))
          | last a b hts hb ha =>
            cases a with
            | nil =>
              injection hts with _ h2
              subst h2
              obtain ⟨y, hy, hy2⟩ := hm
              exact absurd hy2 (hb y hy)
            | cons z a =>
              injection hts with h1 h2
              subst h1
              refine ⟨.last a b h2 hb fun g' hg' => ha g' (List.mem_cons_of_mem _ hg'), ?_⟩
              rintro g' rfl
              exact ha g' (List.mem_cons_self ..)
          | given a b g2 _ hts hb ha hl =>
            cases a with
            | nil =>
              injection hts with _ h2
              subst h2
              obtain ⟨y, hy, hy2⟩ := hm
              exact absurd hy2 (hb y hy)
            | cons z a =>
              injection hts with h1 h2
              subst h1
              refine ⟨.given a b g2 g h2 hb (fun g' hg' => ha g' (List.mem_cons_of_mem _ hg')) hl, ?_⟩
              rintro g' rfl
              exact ha g' (List.mem_cons_self ..)
        · rintro ⟨h, hx⟩
          have hcons : ∀ a : List Transform, (∀ g', Transform.merge (some g') ∈ a → (t.length g').isSome) →
              ∀ g', Transform.merge (some g') ∈ x :: a → (t.length g').isSome := by
            intro a ha g' hg'
            rcases List.mem_cons.mp hg' with h | h
            · exact hx g' h.symm
            · exact ha g' h
          cases h with
          | default h =>
            obtain ⟨y, hy, hy2⟩ := hm
            exact absurd hy2 (h y hy)
          | last a b hts hb ha => exact .last (x :: a) b (by rw [hts]; rfl) hb (hcons a ha)
          | given a b g2 _ hts hb ha hl => exact .given (x :: a) b g2 g (by rw [hts]; rfl) hb (hcons a ha) hl
      have hm' : ∃ y ∈ x :: ts, IsMerge y := by
        obtain ⟨y, hy, hy2⟩ := hm
        exact ⟨y, List.mem_cons_of_mem _ hy, hy2⟩
      have rhs : ((∀ y ∈ x :: ts, ¬IsMerge y) ∧ g = acc ∨ (∃ y ∈ x :: ts, IsMerge y) ∧ GapOf t (x :: ts) g) ↔
          GapOf t (x :: ts) g := by
        constructor
        · rintro (⟨h, _⟩ | ⟨_, h⟩)
          · obtain ⟨y, hy, hy2⟩ := hm'
            exact absurd hy2 (h y hy)
          · exact h
        · exact fun h => .inr ⟨hm', h⟩
      rw [rhs, ext]
      cases x with
      | merge o =>
        cases o with
        | none =>
          simp only [mergedGap]
          rw [key]
          simp
        | some g2 =>
          simp only [mergedGap]
          cases hl : t.length g2 with
          | none => simp [hl]
          | some l =>
            rw [key]
            simp [hl]
      | pages r => simp only [mergedGap]; rw [key]; simp
      | script => simp only [mergedGap]; rw [key]; simp
      | pretty => simp only [mergedGap]; rw [key]; simp
    · -- `x` is the only one that can
      have hn : ∀ y ∈ ts, ¬IsMerge y := fun y hy h => hm ⟨y, hy, h⟩
      have key : ∀ acc', mergedGap t acc' ts = some g ↔ g = acc' := by
        intro acc'
        rw [ih acc' g]
        constructor
        · rintro (⟨_, h⟩ | ⟨⟨y, hy, h⟩, _⟩)
          · exact h
          · exact absurd h (hn y hy)
        · exact fun h => .inl ⟨hn, h⟩
      by_cases hx : IsMerge x
      · obtain ⟨o, rfl⟩ := hx
        have hm' : ∃ y ∈ Transform.merge o :: ts, IsMerge y := ⟨_, List.mem_cons_self .., o, rfl⟩
        have noMid : ∀ (a b : List Transform) (z : Option Text), Transform.merge o :: ts = a ++ .merge z :: b → a = [] ∧ z = o := by
          intro a b z e
          cases a with
          | nil =>
            injection e with h1 _
            injection h1 with h1
            exact ⟨rfl, h1.symm⟩
          | cons w a =>
            injection e with _ h2
            exact absurd ⟨z, rfl⟩ (hn (.merge z) (by rw [h2]; simp))
        have rhs : ((∀ y ∈ Transform.merge o :: ts, ¬IsMerge y) ∧ g = acc ∨ (∃ y ∈ Transform.merge o :: ts, IsMerge y) ∧
            GapOf t (Transform.merge o :: ts) g) ↔ GapOf t (Transform.merge o :: ts) g := by
          constructor
          · rintro (⟨h, _⟩ | ⟨_, h⟩)
            · exact absurd ⟨o, rfl⟩ (h _ (List.mem_cons_self ..))
            · exact h
          · exact fun h => .inr ⟨hm', h⟩
        rw [rhs]
        cases o with
        | none =>
          simp only [mergedGap]
          rw [key]
          constructor
          · rintro rfl
            exact .last [] ts rfl hn (by simp)
          · intro h
            cases h with
            | default h => rfl
            | last => rfl
            | given a b g2 _ hts hb ha hl => exact absurd (noMid a b _ hts).2 (by simp)
        | some g2 =>
          simp only [mergedGap]
          have hlen : GapOf t (Transform.merge (some g2) :: ts) g ↔ t.length g2 = some g := by
            constructor
            · intro h
              cases h with
              | default h => exact absurd ⟨_, rfl⟩ (h _ (List.mem_cons_self ..))
              | last a b hts hb ha => exact absurd (noMid a b _ hts).2 (by simp)
              | given a b g3 _ hts hb ha hl =>
                have := (noMid a b _ hts).2
                injection this with this
                rw [← this]
                exact hl
            · exact fun h => .given [] ts g2 g rfl hn (by simp) h
          rw [hlen]
          cases t.length g2 with
          | none => simp
          | some l =>
            simp only [Option.some.injEq]
            rw [key]
            exact eq_comm
      · have rhs : ((∀ y ∈ x :: ts, ¬IsMerge y) ∧ g = acc ∨ (∃ y ∈ x :: ts, IsMerge y) ∧ GapOf t (x :: ts) g) ↔ g = acc := by
          constructor
          · rintro (⟨_, h⟩ | ⟨⟨y, hy, h⟩, _⟩)
            · exact h
            · rcases List.mem_cons.mp hy with rfl | hy
              · exact absurd h hx
              · exact absurd h (hn y hy)
          · intro h
            refine .inl ⟨?_, h⟩
            intro y hy
            rcases List.mem_cons.mp hy with rfl | hy
            · exact hx
            · exact hn y hy
        rw [rhs]
        cases x with
        | merge o => exact absurd ⟨o, rfl⟩ hx
        | pages r => simp only [mergedGap]; exact key _
        | script => simp only [mergedGap]; exact key _
        | pretty => simp only [mergedGap]; exact key _

theorem gap_iff {ts : List Transform} {g : Len} : mergedGap t t.noGap ts = some g ↔ GapOf t ts g := by
  rw [mergedGap_iff]
  constructor
  · rintro (⟨h, rfl⟩ | ⟨_, h⟩)
    · exact .default h
    · exact h
  · intro h
    by_cases hm : ∃ x ∈ ts, IsMerge x
    · exact .inr ⟨hm, h⟩
    · have hn : ∀ y ∈ ts, ¬IsMerge y := fun y hy h => hm ⟨y, hy, h⟩
      cases h with
      | default => exact .inl ⟨hn, rfl⟩
      | last => exact .inl ⟨hn, rfl⟩
      | given a b g2 _ hts hb ha hl => exact absurd ⟨_, rfl⟩ (hn (.merge (some g2)) (by rw [hts]; simp))

theorem fill_iff {fill : Option Text} {c : Color} : fillOf t fill = some c ↔ Named t fill c := by
  cases fill with
  | none =>
    constructor
    · intro h; cases h; exact .default
    · intro h; cases h; rfl
  | some f =>
    constructor
    · intro h
      unfold fillOf parseColor at h
      simp only at h
      split at h
      · rename_i e; subst e; cases h; exact .black
      split at h
      · rename_i e; subst e; cases h; exact .white
      split at h
      · rename_i e; subst e; cases h; exact .red
      split at h
      · rename_i e; subst e; cases h; exact .green
      split at h
      · rename_i e; subst e; cases h; exact .blue
      split at h
      · split at h
        · rename_i hx; cases h; exact .hex _ hx
        · cases h
      · cases h
    · intro h
      cases h with
      | black => rfl
      | white => rfl
      | red => rfl
      | green => rfl
      | blue => rfl
      | hex d hd =>
        unfold fillOf parseColor
        simp only
        rw [if_neg (by simp), if_neg (by simp), if_neg (by simp), if_neg (by simp), if_neg (by simp), if_pos hd]

theorem serialize_iff {d : Data V} {format : Text} {b : B} : serialize t d format false = some b ↔ Written t d format b := by
  constructor
  · intro h
    unfold serialize at h
    split at h
    · rename_i e; subst e; exact .json d b h
    split at h
    · rename_i e; subst e; exact .yaml d b h
    split at h
    · rename_i e
      subst e
      cases d with
      | one v => exact .txt v b h
      | many => cases h
    · cases h
  · intro h
    cases h with
    | json _ _ h => exact h
    | yaml _ _ h => exact h
    | txt v _ h => exact h

end

end Tinymist.Exporting
