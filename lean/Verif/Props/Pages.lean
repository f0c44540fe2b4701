import Verif.Lemmas.Pages
/-!
# C22, C54, C55: page selections, exported pages, declared tasks
-/
namespace Tinymist.Pages
open RustNum

theorem parts_single {s : List Char} (h : '-' ∉ s) : (split '-' s).map trim = [trim s] := by
  rw [split_none h]; rfl

theorem parts_double {a b : List Char} (ha : '-' ∉ a) (hb : '-' ∉ b) :
    (split '-' (a ++ '-' :: b)).map trim = [trim a, trim b] := by
  rw [split_append ha, split_none hb]; rfl

theorem numeral_trim {a t b : List Char} {n : Nat} (ha : Blank a) (hb : Blank b) (h : Numeral t n) :
    trim (a ++ t ++ b) = t := trim_eq ha hb fun c hc => ((numeral_chars h).2 c hc).1

theorem no_hyphen {a t b : List Char} {n : Nat} (ha : Blank a) (hb : Blank b) (h : Numeral t n) :
    '-' ∉ a ++ t ++ b := by
  simp only [List.mem_append, not_or]
  exact ⟨⟨blank_no_hyphen ha, numeral_no_hyphen h⟩, blank_no_hyphen hb⟩

theorem parsePages_of_written {s : List Char} {p : Pages} (h : Written s p) : parsePages s = some p := by
  cases h with
  | @single a t b n ha hb h =>
    have hne := (numeral_chars h).1
    rw [parsePages, parts_single (no_hyphen ha hb h), numeral_trim ha hb h]
    cases t with
    | nil => exact (hne rfl).elim
    | cons c t => simp only [(parsePageNumber_iff _ _).mpr h, Option.map_some]
  | @starting a t b c n ha hb hc h =>
    have hne := (numeral_chars h).1
    rw [parsePages, parts_double (no_hyphen ha hb h) (blank_no_hyphen hc), numeral_trim ha hb h, trim_blank hc]
    cases t with
    | nil => exact (hne rfl).elim
    | cons c t => simp only [(parsePageNumber_iff _ _).mpr h, Option.map_some]
  | @ending a b t c n ha hb hc h =>
    have hne := (numeral_chars h).1
    rw [parsePages, parts_double (blank_no_hyphen ha) (no_hyphen hb hc h), numeral_trim hb hc h, trim_blank ha]
    cases t with
    | nil => exact (hne rfl).elim
    | cons c t => simp only [(parsePageNumber_iff _ _).mpr h, Option.map_some]
  | @range a t b c u d n m ha hb hc hd h h' hle =>
    have hne := (numeral_chars h).1
    have hne' := (numeral_chars h').1
    rw [parsePages, parts_double (no_hyphen ha hb h) (no_hyphen hc hd h'), numeral_trim ha hb h, numeral_trim hc hd h']
    cases t with
    | nil => exact (hne rfl).elim
    | cons x t =>
      cases u with
      | nil => exact (hne' rfl).elim
      | cons y u =>
        simp only [(parsePageNumber_iff _ _).mpr h, (parsePageNumber_iff _ _).mpr h', Option.bind_eq_bind,
          Option.bind_some]
        rw [if_neg (by omega)]

theorem written_of_parsePages {s : List Char} {p : Pages} (hp : parsePages s = some p) : Written s p := by
  rcases split_cases '-' s with ⟨e, hs⟩ | ⟨a, r, es, ha, e⟩
  · obtain ⟨x, y, hx, hy, et⟩ := trim_spec s
    rw [parsePages, e] at hp
    simp only [List.map_cons, List.map_nil] at hp
    split at hp <;> rename_i heq
    · cases heq
    · cases hp
    · obtain ⟨n, hn, rfl⟩ := Option.map_eq_some_iff.mp hp
      injection heq with heq
      rw [et]
      exact .single hx hy ((parsePageNumber_iff _ _).mp (heq ▸ hn))
    all_goals (injection heq with h1 h2; cases h2)
  · rcases split_cases '-' r with ⟨e', hr⟩ | ⟨a', r', es', ha', e'⟩
    · obtain ⟨x, y, hx, hy, et⟩ := trim_spec a
      obtain ⟨z, w, hz, hw, et'⟩ := trim_spec r
      rw [parsePages, e, e'] at hp
      simp only [List.map_cons, List.map_nil] at hp
      split at hp <;> rename_i heq
      · cases heq
      · injection heq with h1 h2; cases h2
      · injection heq with h1 h2; cases h2
      · cases hp
      · obtain ⟨n, hn, rfl⟩ := Option.map_eq_some_iff.mp hp
        injection heq with h1 h2
        injection h2 with h2
        have hb : Blank r := by
          rw [et', h2, List.append_nil]
          intro c hc
          rcases List.mem_append.mp hc with hc | hc
          · exact hz c hc
          · exact hw c hc
        rw [es, et]
        exact .starting hx hy hb ((parsePageNumber_iff _ _).mp (h1 ▸ hn))
      · obtain ⟨n, hn, rfl⟩ := Option.map_eq_some_iff.mp hp
        injection heq with h1 h2
        injection h2 with h2
        have hb : Blank a := by
          rw [et, h1, List.append_nil]
          intro c hc
          rcases List.mem_append.mp hc with hc | hc
          · exact hx c hc
          · exact hy c hc
        rw [es, et']
        exact .ending hb hz hw ((parsePageNumber_iff _ _).mp (h2 ▸ hn))
      · injection heq with h1 h2
        injection h2 with h2
        subst h1
        subst h2
        cases hn : parsePageNumber (trim a) with
        | none => rw [hn] at hp; cases hp
        | some n =>
          cases hm : parsePageNumber (trim r) with
          | none => rw [hn, hm] at hp; cases hp
          | some m =>
            rw [hn, hm] at hp
            simp only [Option.bind_eq_bind, Option.bind_some] at hp
            split at hp
            · cases hp
            · injection hp with hp
              subst hp
              rw [es, et, et', ]
              exact .range hx hy hz hw ((parsePageNumber_iff _ _).mp hn) ((parsePageNumber_iff _ _).mp hm) (by omega)
      · injection heq with h1 h2; injection h2 with h2 h3; cases h3
    · rw [parsePages, e, e'] at hp
      obtain ⟨q, qs, eq⟩ : ∃ q qs, split '-' r' = q :: qs := by
        cases h : split '-' r' with
        | nil => exact (split_ne_nil _ _ h).elim
        | cons q qs => exact ⟨q, qs, rfl⟩
      rw [eq] at hp
      simp only [List.map_cons] at hp
      cases hp

/-- **C22**: a page selection is accepted exactly when it is written as documented, and read as what is written. -/
theorem pages_accepted_iff (s : List Char) (p : Pages) : parsePages s = some p ↔ Written s p :=
  ⟨written_of_parsePages, parsePages_of_written⟩

example : parsePages " 3 -\t12".toList = some ⟨some 3, some 12⟩ := by decide

/-- Every accepted selection has positive bounds in the right order, and at least one bound. -/
theorem accepted_bounds {s : List Char} {p : Pages} (h : Written s p) :
    (p.first ≠ none ∨ p.last ≠ none) ∧ (∀ a, p.first = some a → 0 < a ∧ a ≤ usizeMax) ∧
      (∀ b, p.last = some b → 0 < b ∧ b ≤ usizeMax) ∧ ∀ a b, p.first = some a → p.last = some b → a ≤ b := by
  have num : ∀ {t n}, Numeral t n → 0 < n ∧ n ≤ usizeMax := fun ⟨_, _, _, _, _, h, h'⟩ => ⟨h, h'⟩
  cases h with
  | single ha hb h =>
    refine ⟨by simp, ?_, ?_, ?_⟩
    · rintro a ⟨⟩; exact num h
    · rintro a ⟨⟩; exact num h
    · rintro a b ⟨⟩ ⟨⟩; exact Nat.le_refl _
  | starting ha hb hc h =>
    refine ⟨by simp, ?_, by rintro b ⟨⟩, by rintro a b _ ⟨⟩⟩
    rintro a ⟨⟩; exact num h
  | ending ha hb hc h =>
    refine ⟨by simp, by rintro b ⟨⟩, ?_, by rintro a b ⟨⟩⟩
    rintro a ⟨⟩; exact num h
  | range ha hb hc hd h h' hle =>
    refine ⟨by simp, ?_, ?_, ?_⟩
    · rintro a ⟨⟩; exact num h
    · rintro a ⟨⟩; exact num h'
    · rintro a b ⟨⟩ ⟨⟩; exact hle

/-- The printed form of a selection with sensible bounds is one way to write it. -/
theorem show_written (p : Pages) (h0 : p.first ≠ none ∨ p.last ≠ none)
    (h1 : ∀ a, p.first = some a → 0 < a ∧ a ≤ usizeMax) (h2 : ∀ b, p.last = some b → 0 < b ∧ b ≤ usizeMax)
    (h3 : ∀ a b, p.first = some a → p.last = some b → a ≤ b) : Written (showPages p) p := by
  have nil : Blank [] := by intro c hc; cases hc
  obtain ⟨first, last⟩ := p
  cases first with
  | none =>
    cases last with
    | none => rcases h0 with h | h <;> exact (h rfl).elim
    | some b =>
      have := Written.ending nil nil nil (numeral_print (h2 b rfl).1 (h2 b rfl).2)
      simpa [showPages, showBound] using this
  | some a =>
    cases last with
    | none =>
      have := Written.starting nil nil nil (numeral_print (h1 a rfl).1 (h1 a rfl).2)
      simpa [showPages, showBound] using this
    | some b =>
      have := Written.range nil nil nil nil (numeral_print (h1 a rfl).1 (h1 a rfl).2)
        (numeral_print (h2 b rfl).1 (h2 b rfl).2) (h3 a b rfl rfl)
      simpa [showPages, showBound] using this

/-- **C22**: whatever selection a user enters, writing it and reading it back yields the same selection. -/
theorem pages_round_trip (s : List Char) (p : Pages) (h : parsePages s = some p) :
    parsePages (showPages p) = some p := by
  obtain ⟨h0, h1, h2, h3⟩ := accepted_bounds ((pages_accepted_iff s p).mp h)
  exact (pages_accepted_iff _ _).mpr (show_written p h0 h1 h2 h3)

example : parsePages "7".toList = some ⟨some 7, some 7⟩ ∧ showPages ⟨some 7, some 7⟩ = "7-7".toList := by decide +kernel

/-- Zero, an empty range, a lone hyphen, a reversed range and two hyphens are rejected. -/
theorem pages_rejects :
    (∀ s, parsePages s ≠ some ⟨none, none⟩) ∧
    (∀ s p, parsePages s = some p → ∀ i, p.first = some i ∨ p.last = some i → i ≠ 0) ∧
    (∀ s a b, b < a → parsePages s ≠ some ⟨some a, some b⟩) ∧
    (∀ x y z, parsePages (x ++ '-' :: y ++ '-' :: z) = none) := by
  refine ⟨?_, ?_, ?_, ?_⟩
  · intro s h
    obtain ⟨h0, _⟩ := accepted_bounds ((pages_accepted_iff _ _).mp h)
    rcases h0 with h | h <;> exact h rfl
  · intro s p h i hi
    obtain ⟨_, h1, h2, _⟩ := accepted_bounds ((pages_accepted_iff _ _).mp h)
    rcases hi with hi | hi
    · have := h1 i hi; omega
    · have := h2 i hi; omega
  · intro s a b hab h
    obtain ⟨_, _, _, h3⟩ := accepted_bounds ((pages_accepted_iff _ _).mp h)
    have := h3 a b rfl rfl; omega
  · intro x y z
    cases hp : parsePages (x ++ '-' :: y ++ '-' :: z) with
    | none => rfl
    | some p =>
      exfalso
      have hw := (pages_accepted_iff _ _).mp hp
      have count : ∀ {s p}, Written s p → s.count '-' ≤ 1 := by
        intro s p h
        have cb : ∀ {b}, Blank b → b.count '-' = 0 := fun h => List.count_eq_zero.mpr (blank_no_hyphen h)
        have cn : ∀ {t n}, Numeral t n → t.count '-' = 0 := fun h => List.count_eq_zero.mpr (numeral_no_hyphen h)
        cases h with
        | single ha hb h => simp [List.count_append, cb ha, cb hb, cn h]
        | starting ha hb hc h => simp [List.count_append, cb ha, cb hb, cb hc, cn h]
        | ending ha hb hc h => simp [List.count_append, cb ha, cb hb, cb hc, cn h]
        | range ha hb hc hd h h' hle => simp [List.count_append, cb ha, cb hb, cb hc, cb hd, cn h, cn h']
      have := count hw
      simp [List.count_append] at this
      omega

/-! ## C54: exported pages -/

/-- **C54, what holds**: an export without a page selection shows every page, once and in order. -/
theorem unselected_exports_all_partial (ts : List Transform) (n : Nat) (h : ∀ t ∈ ts, ∀ r, t ≠ .pages r) :
    imagePages ts n = List.range' 1 n ∧ pdfPages ts n = List.range' 1 n ∧
      ∀ i, i ∈ List.range' 1 n ↔ Wanted ts n i := by
  have hf : isFirst ts = false := by
    rw [isFirst, List.any_eq_false]
    intro t ht
    cases t with
    | pages r => exact (h _ ht r rfl).elim
    | merge g => simp
    | script => simp
    | pretty => simp
  refine ⟨by rw [imagePages, hf]; rfl, rfl, ?_⟩
  intro i
  rw [List.mem_range'_1]
  constructor
  · intro hi
    exact ⟨hi.1, by omega, fun t ht r e => (h t ht r e).elim⟩
  · rintro ⟨h1, h2, _⟩
    exact ⟨h1, by omega⟩

example : imagePages [.merge none, .script] 3 = [1, 2, 3] := by decide

/-- The editor's page selections: the first page, or all of them. -/
theorem editor_selection (ts : List Transform) (n : Nat) (h : ∀ t ∈ ts, ∀ r, t ≠ .pages r) (gap : Option (List Char)) :
    imagePages (selectPage ts .first) n = List.range' 1 (min n 1) ∧
      imagePages (selectPage ts (.merged gap)) n = List.range' 1 n := by
  constructor
  · have hf : isFirst (selectPage ts .first) = true := by simp [isFirst, selectPage]
    rw [imagePages, hf, if_pos rfl]
    rcases Nat.eq_zero_or_pos n with rfl | hn
    · rfl
    · rw [if_neg (by omega), show min n 1 = 1 by omega]; rfl
  · refine (unselected_exports_all_partial _ n ?_).1
    intro t ht r e
    rw [selectPage, List.mem_append] at ht
    rcases ht with ht | ht
    · exact h t ht r e
    · rw [List.mem_singleton] at ht
      rw [ht] at e; cases e

/-- **C54 fails**: asking for page 2 exports every page, in every format; asking for "1-" (every page from the first)
exports the first page only, as an image. -/
theorem page_selection_ignored :
    (∃ p, parsePages "2".toList = some p ∧ imagePages [.pages [p]] 3 = [1, 2, 3] ∧ pdfPages [.pages [p]] 3 = [1, 2, 3] ∧
      ∀ i, Wanted [.pages [p]] 3 i → i = 2) ∧
    ∃ p, parsePages "1-".toList = some p ∧ imagePages [.pages [p]] 3 = [1] ∧ Wanted [.pages [p]] 3 2 := by
  refine ⟨⟨⟨some 2, some 2⟩, by decide, by decide, by decide, ?_⟩, ⟨some 1, none⟩, by decide, by decide, ?_⟩
  · rintro i ⟨h1, h2, h⟩
    obtain ⟨p, hp, h3, h4⟩ := h _ (List.mem_singleton.mpr rfl) _ rfl
    rw [List.mem_singleton] at hp
    subst hp
    have := h3 2 rfl
    have := h4 2 rfl
    omega
  · refine ⟨by omega, by omega, ?_⟩
    rintro t ht r rfl
    rw [List.mem_singleton] at ht
    injection ht with ht
    subst ht
    refine ⟨_, List.mem_singleton.mpr rfl, ?_, ?_⟩
    · rintro a ⟨⟩; omega
    · rintro a ⟨⟩

/-! ## C55: declared tasks -/

/-- The formats a user can name by an output file's extension. -/
def Named (ext : List Char) : Format → Prop
  | .pdf => ext.map Char.toLower = "pdf".toList
  | .png => ext.map Char.toLower = "png".toList
  | .svg => ext.map Char.toLower = "svg".toList
  | .html => ext.map Char.toLower = "html".toList

/-- The format a user asks for: the one named explicitly, else the output file's, else PDF. -/
def Asked (a : CompileArgs) (f : Format) : Prop :=
  a.format = some f ∨
  (a.format = none ∧ a.output = none ∧ f = .pdf) ∨
  ∃ o e, a.format = none ∧ a.output = some o ∧ Extension o e ∧ Named e f

theorem takeWhile_dropWhile_dot (r : List Char) :
    '.' ∉ r.takeWhile (· ≠ '.') ∧ ('.' ∈ r → ∃ t, r = r.takeWhile (· ≠ '.') ++ '.' :: t ∧ r.dropWhile (· ≠ '.') = '.' :: t) := by
  induction r with
  | nil => simp
  | cons c r ih =>
    by_cases hc : c = '.'
    · subst hc; simp
    · have : (fun x : Char => decide (x ≠ '.')) c = true := by simpa using hc
      rw [List.takeWhile_cons_of_pos (p := fun x : Char => decide (x ≠ '.')) this,
        List.dropWhile_cons_of_pos (p := fun x : Char => decide (x ≠ '.')) this]
      refine ⟨by simp only [List.mem_cons, not_or]; exact ⟨fun h => hc h.symm, ih.1⟩, fun h => ?_⟩
      obtain ⟨t, h1, h2⟩ := ih.2 (by rcases List.mem_cons.mp h with h | h; exact absurd h.symm hc; exact h)
      exact ⟨t, by rw [List.cons_append]; exact congrArg _ h1, h2⟩

theorem extension_iff (name e : List Char) : extension name = some e ↔ name ≠ ['.', '.'] ∧ Extension name e := by
  obtain ⟨h1, h2⟩ := takeWhile_dropWhile_dot name.reverse
  unfold extension
  simp only
  split
  · rename_i h; simp [h]
  · rename_i hn
    refine Iff.trans ?_ (and_iff_right hn).symm
    by_cases hd : '.' ∈ name
    · obtain ⟨t, h3, h4⟩ := h2 (List.mem_reverse.mpr hd)
      have hname : name = t.reverse ++ '.' :: (name.reverse.takeWhile (· ≠ '.')).reverse := by
        have := congrArg List.reverse h3
        simpa using this
      rw [h4]
      constructor
      · split
        · rename_i h
          intro he
          rw [Option.some.injEq] at he
          refine ⟨t.reverse, ?_, by rw [← he]; exact hname, by rw [← he]; simpa using h1⟩
          intro ht
          rw [List.reverse_eq_nil_iff] at ht
          subst ht
          simp at h
        · intro h; cases h
      · rintro ⟨stem, hs, hx, he⟩
        have hu : t.reverse = stem ∧ (name.reverse.takeWhile (· ≠ '.')).reverse = e := by
          have hx' : t.reverse ++ '.' :: (name.reverse.takeWhile (· ≠ '.')).reverse = stem ++ '.' :: e := hname.symm.trans hx
          have hno : '.' ∉ (name.reverse.takeWhile (· ≠ '.')).reverse := by simpa using h1
          generalize (name.reverse.takeWhile (· ≠ '.')).reverse = w at hx' hno
          rcases List.append_eq_append_iff.mp hx' with ⟨a, ha, hb⟩ | ⟨a, ha, hb⟩
          · cases a with
            | nil => simp at ha hb; exact ⟨ha.symm, hb⟩
            | cons x a =>
              simp only [List.cons_append, List.cons.injEq] at hb
              exact absurd (by rw [hb.2]; simp : '.' ∈ w) hno
          · cases a with
            | nil => simp at ha hb; exact ⟨ha, hb.symm⟩
            | cons x a =>
              simp only [List.cons_append, List.cons.injEq] at hb
              exact absurd (by rw [hb.2]; simp : '.' ∈ e) he
        rw [if_pos, hu.2]
        refine ⟨hd, ?_⟩
        rw [List.length_cons]
        have : t ≠ [] := fun h => hs (by rw [← hu.1, h]; rfl)
        have := List.length_pos_iff.mpr this
        omega
    · rw [if_neg (fun h => hd h.1)]
      constructor
      · intro h; cases h
      · rintro ⟨stem, _, hx, _⟩
        exact absurd (by rw [hx]; simp) hd

theorem outputFormat_iff (a : CompileArgs) (f : Format) : outputFormat a = some f ↔ Asked a f := by
  unfold outputFormat Asked
  cases a.format with
  | some g => simp
  | none =>
    cases a.output with
    | none => simp [eq_comm]
    | some o =>
      simp only [reduceCtorEq, false_and, false_or, true_and, Option.some.injEq, exists_and_left, exists_eq_left', and_false]
      have hdots : ∀ e, ['.', '.'] = o → Extension o e → ¬ Named e f := by
        rintro e rfl ⟨stem, hs, hx, he⟩ hn
        have : e = [] := by
          rcases stem with _ | ⟨a, _ | ⟨b, stem⟩⟩
          · exact absurd rfl hs
          · exact (by simpa using hx.symm : a = '.' ∧ e = []).2
          · simp at hx
        subst this
        cases f <;> exact absurd hn (by unfold Named; decide)
      have hext : (∃ e, Extension o e ∧ Named e f) ↔ ∃ e, extension o = some e ∧ Named e f := by
        constructor
        · rintro ⟨e, h1, h2⟩
          exact ⟨e, (extension_iff o e).mpr ⟨fun h => hdots e h.symm h1 h2, h1⟩, h2⟩
        · rintro ⟨e, h1, h2⟩
          exact ⟨e, ((extension_iff o e).mp h1).2, h2⟩
      rw [hext]
      cases extension o with
      | none => simp
      | some e =>
        have lp : "pdf".toList.map Char.toLower = "pdf".toList := by decide
        have lg : "png".toList.map Char.toLower = "png".toList := by decide
        have ls : "svg".toList.map Char.toLower = "svg".toList := by decide
        have lh : "html".toList.map Char.toLower = "html".toList := by decide
        have ne1 : "pdf".toList ≠ "png".toList := by decide
        have ne2 : "pdf".toList ≠ "svg".toList := by decide
        have ne3 : "pdf".toList ≠ "html".toList := by decide
        have ne4 : "png".toList ≠ "svg".toList := by decide
        have ne5 : "png".toList ≠ "html".toList := by decide
        have ne6 : "svg".toList ≠ "html".toList := by decide
        simp only [eqIgnoreCase, lp, lg, ls, lh, beq_iff_eq, Option.some.injEq, exists_eq_left']
        cases f <;> simp only [Named] <;> generalize e.map Char.toLower = x <;>
          (generalize "pdf".toList = y1 at *; generalize "png".toList = y2 at *; generalize "svg".toList = y3 at *
           generalize "html".toList = y4 at *; clear lp lg ls lh; repeat' split) <;> simp_all

/-- A task of this kind produces this format. -/
def Produces : TaskKind → Format → Prop
  | .exportPdf, f => f = .pdf
  | .exportPng, f => f = .png
  | .exportSvg, f => f = .svg
  | .exportHtml, f => f = .html

/-- **C55, what holds**: a task is declared exactly when the format can be told, it has the name asked for or else the
document's, the page ranges asked for, and for PDF, PNG and SVG it produces the format asked for. Missing: HTML and the
output path. -/
theorem declared_task_partial (a : CompileArgs) (docId : List Char) :
    ((∃ t, toTask a docId = some t) ↔ ∃ f, Asked a f) ∧
    ∀ t, toTask a docId = some t →
      t.document = docId ∧ (∀ n, a.taskName = some n → t.id = n) ∧ (a.taskName = none → t.id = docId) ∧
      (∀ ps, a.pages = some ps → t.transform = [.pages ps]) ∧ (a.pages = none → t.transform = []) ∧
      ∀ f, Asked a f → f ≠ .html → Produces t.kind f := by
  cases hf : outputFormat a with
  | none =>
    have hn : toTask a docId = none := by rw [toTask, hf]; rfl
    rw [hn]
    refine ⟨⟨fun ⟨_, h⟩ => (by cases h), fun ⟨f, h⟩ => ?_⟩, fun t h => (by cases h)⟩
    rw [← outputFormat_iff, hf] at h; cases h
  | some g =>
    have hg := (outputFormat_iff a g).mp hf
    have ht : toTask a docId = some ⟨a.taskName.getD docId, docId, taskKind g, none,
        match a.pages with | some ps => [Transform.pages ps] | none => []⟩ := by rw [toTask, hf]; rfl
    rw [ht]
    refine ⟨⟨fun _ => ⟨g, hg⟩, fun _ => ⟨_, rfl⟩⟩, ?_⟩
    intro t e
    injection e with e
    subst e
    refine ⟨rfl, ?_, ?_, ?_, ?_, ?_⟩
    · intro n hn; simp [hn]
    · intro hn; simp [hn]
    · intro ps hp; simp [hp]
    · intro hp; simp [hp]
    · intro f h hne
      rw [← outputFormat_iff, hf] at h
      injection h with h
      subst h
      cases g
      · rfl
      · rfl
      · rfl
      · exact (hne rfl).elim

example : ∃ t, toTask ⟨none, some "out.PNG".toList, none, none⟩ "doc".toList = some t ∧ t.kind = .exportPng :=
  ⟨_, rfl, by decide⟩

/-- **C55 fails**: an HTML task becomes an SVG export, and the output path asked for is never recorded. -/
theorem declared_task_wrong :
    (∃ t, toTask ⟨none, none, some .html, none⟩ "doc".toList = some t ∧ ¬ Produces t.kind .html) ∧
    ∀ a docId t, toTask a docId = some t → t.output = none := by
  refine ⟨⟨_, rfl, fun h => nomatch h⟩, ?_⟩
  intro a docId t h
  rw [toTask] at h
  cases hf : outputFormat a with
  | none => rw [hf] at h; cases h
  | some g =>
    rw [hf] at h
    injection h with h
    rw [← h]

end Tinymist.Pages
