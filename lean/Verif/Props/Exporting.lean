import Verif.Lemmas.Exporting
/-!
# Exports

C171: which files are written when. C172: what is in them. C173: queries.
-/

namespace Tinymist.Exporting
open Pages (Transform)
open Workspace (EntryState)
open Spec

section
variable {Pg H El V Len B : Type} {t : Tools Pg H El V Len B}

theorem mapped_eq (field : Option Text) (els : List El) : mapped t field els = els.filterMap (valueOf t field) := by
  unfold mapped
  congr 1
  funext c
  cases field <;> rfl

theorem query_iff {doc : Doc Pg H} {format sel : Text} {field : Option Text} {one : Bool} {b : B} :
    queryBytes t doc format sel field one = some b ↔
      ∃ els, t.retrieve sel doc = some els ∧
        ((one = true ∧ ∃ el v, els = [el] ∧ valueOf t field el = some v ∧ Written t (.one v) format b) ∨
         (one = false ∧ Written t (.many (els.filterMap (valueOf t field))) format b)) := by
  unfold queryBytes
  cases hr : t.retrieve sel doc with
  | none => simp
  | some els =>
    simp only [Option.some.injEq, exists_eq_left']
    cases one with
    | false =>
      simp only [Bool.false_and, Bool.false_eq_true, if_false, false_and, false_or, true_and]
      rw [mapped_eq, serialize_iff]
    | true =>
      simp only [Bool.true_and, if_true, true_and, Bool.true_eq_false, false_and, or_false]
      by_cases hl : els.length = 1
      · obtain ⟨el, rfl⟩ := List.length_eq_one_iff.mp hl
        rw [if_neg (by simp), mapped_eq]
        cases hv : valueOf t field el with
        | none =>
          simp only [List.filterMap_cons, hv, List.filterMap_nil]
          constructor
          · intro h; cases h
          · rintro ⟨el', v, h1, h2, _⟩
            injection h1 with h1
            subst h1
            rw [hv] at h2
            cases h2
        | some v =>
          simp only [List.filterMap_cons, hv, List.filterMap_nil]
          rw [serialize_iff]
          constructor
          · exact fun h => ⟨el, v, rfl, hv, h⟩
          · rintro ⟨el', v', h1, h2, h3⟩
            injection h1 with h1
            subst h1
            rw [hv] at h2
            cases h2
            exact h3
      · rw [if_pos (by simp [hl])]
        constructor
        · intro h; cases h
        · rintro ⟨el, v, rfl, _⟩
          exact absurd rfl hl

/-! ## C172 -/

/-- Exports hold what the task asks for.
Missing: the fill colour of PNG exports of the first page, which is not used. -/
theorem contents_iff_partial (task : Task) (hk : task.kind ≠ .preview) (doc : Doc Pg H) (b : B) :
    contents t task doc = some b ↔ Content t doc task.kind task.transform b := by
  obtain ⟨kind, output, ts⟩ := task
  unfold contents
  simp only at hk ⊢
  cases kind with
  | preview => exact absurd rfl hk
  | pdf st ti =>
    constructor
    · intro h
      simp only at h
      split at h
      · rename_i ps hp
        exact .pdf ts st ti ps b (pagedDoc_iff.mp hp) h
      · cases h
    · intro h
      cases h with
      | pdf _ _ _ ps _ hp h =>
        simp only
        rw [pagedDoc_iff.mpr hp]
        exact h
  | html =>
    constructor
    · intro h
      simp only at h
      split at h
      · rename_i x hp
        exact .html ts x b (htmlDoc_iff.mp hp) h
      · cases h
    · intro h
      cases h with
      | html _ x _ hp h =>
        simp only
        rw [htmlDoc_iff.mpr hp]
        exact h
  | svgHtml =>
    constructor
    · intro h
      obtain ⟨ps, hp, rfl⟩ := Option.map_eq_some_iff.mp h
      exact .svgHtml ts ps (pagedDoc_iff.mp hp)
    · intro h
      cases h with
      | svgHtml _ ps hp =>
        simp only
        rw [pagedDoc_iff.mpr hp]
        rfl
  | text =>
    constructor
    · exact fun h => .text ts b h
    · intro h
      cases h with
      | text _ _ h => exact h
  | md =>
    constructor
    · exact fun h => .md ts b h
    · intro h
      cases h with
      | md _ _ h => exact h
  | svg =>
    simp only
    unfold svgBytes pageSelection
    constructor
    · intro h
      by_cases hf : Pages.isFirst ts = true
      · rw [if_pos hf] at h
        simp only at h
        split at h
        · rename_i p ps hp
          cases h
          exact .svgFirst ts p ps (isFirst_iff.mp hf) (pagedDoc_iff.mp hp)
        · cases h
      · rw [if_neg hf] at h
        cases hg : mergedGap t t.noGap ts with
        | none => rw [hg] at h; cases h
        | some g =>
          rw [hg] at h
          obtain ⟨ps, hp, rfl⟩ := Option.map_eq_some_iff.mp h
          exact .svgAll ts ps g (fun h => hf (isFirst_iff.mpr h)) (pagedDoc_iff.mp hp) (gap_iff.mp hg)
    · intro h
      cases h with
      | svgFirst _ p ps hf hp =>
        rw [if_pos (isFirst_iff.mpr hf)]
        simp only
        rw [pagedDoc_iff.mpr hp]
      | svgAll _ ps g hf hp hg =>
        rw [if_neg (fun h => hf (isFirst_iff.mp h)), gap_iff.mpr hg]
        simp only [Option.map_some]
        rw [pagedDoc_iff.mpr hp]
        rfl
  | png ppi fill =>
    simp only
    unfold pngBytes pageSelection
    constructor
    · intro h
      split at h
      · cases h
      rename_i hppi
      have hppi : 1 < ppi := by omega
      cases hc : fillOf t fill with
      | none => rw [hc] at h; cases h
      | some c =>
        rw [hc] at h
        simp only at h
        by_cases hf : Pages.isFirst ts = true
        · rw [if_pos hf] at h
          simp only at h
          split at h
          · rename_i p ps hp
            exact .pngFirst ts ppi fill c p ps b hppi (fill_iff.mp hc) (isFirst_iff.mp hf) (pagedDoc_iff.mp hp) h
          · cases h
        · rw [if_neg hf] at h
          cases hg : mergedGap t t.noGap ts with
          | none => rw [hg] at h; cases h
          | some g =>
            rw [hg] at h
            simp only [Option.map_some] at h
            split at h
            · rename_i ps hp
              exact .pngAll ts ppi fill c ps g b hppi (fill_iff.mp hc) (fun h => hf (isFirst_iff.mpr h)) (pagedDoc_iff.mp hp)
                (gap_iff.mp hg) h
            · cases h
    · intro h
      cases h with
      | pngFirst _ _ _ c p ps _ hppi hc hf hp h =>
        rw [if_neg (by omega), fill_iff.mpr hc]
        simp only
        rw [if_pos (isFirst_iff.mpr hf)]
        simp only
        rw [pagedDoc_iff.mpr hp]
        exact h
      | pngAll _ _ _ c ps g _ hppi hc hf hp hg h =>
        rw [if_neg (by omega), fill_iff.mpr hc]
        simp only
        rw [if_neg (fun h => hf (isFirst_iff.mp h)), gap_iff.mpr hg]
        simp only [Option.map_some]
        rw [pagedDoc_iff.mpr hp]
        exact h
  | query format ext sel field one =>
    simp only
    rw [query_iff]
    constructor
    · rintro ⟨els, hr, (⟨rfl, el, v, rfl, hv, hw⟩ | ⟨rfl, hw⟩)⟩
      · exact .queryOne ts format ext sel field el v b hr hv hw
      · exact .queryMany ts format ext sel field els b hr hw
    · intro h
      cases h with
      | queryOne _ _ _ _ _ el v _ hr hv hw => exact ⟨[el], hr, .inl ⟨rfl, el, v, rfl, hv, hw⟩⟩
      | queryMany _ _ _ _ _ els _ hr hw => exact ⟨els, hr, .inr ⟨rfl, hw⟩⟩

/-- Images of the first page are the same for all colours that can be named, although a colour to fill with is asked for. -/
theorem fill_ignored (task : Task) (ppi : Int) (f g : Text) (hf : (parseColor t f).isSome) (hg : (parseColor t g).isSome)
    (h1 : OnlyFirst task.transform) (doc : Doc Pg H) :
    contents t { task with kind := .png ppi (some f) } doc = contents t { task with kind := .png ppi (some g) } doc := by
  obtain ⟨c, hc⟩ := Option.isSome_iff_exists.mp hf
  obtain ⟨d, hd⟩ := Option.isSome_iff_exists.mp hg
  have hs : pageSelection t task.transform = some (true, t.noGap) := by
    unfold pageSelection
    rw [if_pos (isFirst_iff.mpr h1)]
  simp only [contents, pngBytes, fillOf, hc, hd, hs]

/-- Merged images do depend on it: the colour is passed on. -/
theorem fill_used (task : Task) (ppi : Int) (f : Text) (c : Color) (hp : 1 < ppi) (hc : parseColor t f = some c)
    (h1 : ¬OnlyFirst task.transform) (g : Len) (hg : GapOf t task.transform g) (ps : List Pg) :
    contents t { task with kind := .png ppi (some f) } (.paged ps) = t.pngMerged ps ppi g c := by
  have hs : pageSelection t task.transform = some (false, g) := by
    unfold pageSelection
    rw [if_neg (fun h => h1 (isFirst_iff.mp h)), gap_iff.mpr hg]
    rfl
  simp only [contents, pngBytes, fillOf, hc, hs, pagedDoc]
  rw [if_neg (by omega)]

/-- Asking for the first page of a document without pages is an error, in both image formats. -/
theorem no_first_page (task : Task) (h1 : OnlyFirst task.transform) (ppi : Int) (fill : Option Text) :
    contents t { task with kind := .svg } (.paged []) = none ∧ contents t { task with kind := .png ppi fill } (.paged []) = none := by
  have hs : pageSelection t task.transform = some (true, t.noGap) := by
    unfold pageSelection
    rw [if_pos (isFirst_iff.mpr h1)]
  constructor
  · simp only [contents, svgBytes, hs, pagedDoc]
  · simp only [contents, pngBytes, hs, pagedDoc]
    split
    · rfl
    · split <;> rfl

/-- Exports in a format with pages do not depend on whether the document was compiled to HTML before, as long as compiling again gives the
same pages. -/
theorem same_for_html (task : Task) (hk : task.kind ≠ .preview) (ht : task.kind ≠ .text) (hq : ∀ f e s fi o, task.kind ≠ .query f e s fi o)
    (hh : task.kind ≠ .html) (h : H) (ps : List Pg) (hc : t.compilePaged = some ps) :
    contents t task (.html h) = contents t task (.paged ps) := by
  obtain ⟨kind, output, ts⟩ := task
  have hp : pagedDoc t (.html h) = pagedDoc t (.paged ps) := hc
  cases kind with
  | preview => exact absurd rfl hk
  | text => exact absurd rfl ht
  | html => exact absurd rfl hh
  | query f e s fi o => exact absurd rfl (hq f e s fi o)
  | pdf => simp only [contents, hp]
  | svgHtml => simp only [contents, hp]
  | md => rfl
  | svg => simp only [contents, svgBytes, hp]
  | png => simp only [contents, pngBytes, hp]

/-! ## C173 -/

/-- A query for one element succeeds exactly if there is one, has what is asked for, and that can be written. -/
theorem query_one (doc : Doc Pg H) (format sel : Text) (ext field : Option Text) (ts : List Transform) (out : Option Text) (b : B) :
    contents t ⟨.query format ext sel field true, out, ts⟩ doc = some b ↔
      ∃ el v, t.retrieve sel doc = some [el] ∧ valueOf t field el = some v ∧ Written t (.one v) format b := by
  show queryBytes t doc format sel field true = some b ↔ _
  rw [query_iff]
  constructor
  · rintro ⟨els, hr, (⟨_, el, v, rfl, hv, hw⟩ | ⟨h, _⟩)⟩
    · exact ⟨el, v, hr, hv, hw⟩
    · cases h
  · rintro ⟨el, v, hr, hv, hw⟩
    exact ⟨[el], hr, .inl ⟨rfl, el, v, rfl, hv, hw⟩⟩

/-- A query for all elements gives their values, in the order of the document. -/
theorem query_many (doc : Doc Pg H) (format sel : Text) (ext field : Option Text) (ts : List Transform) (out : Option Text) (b : B) :
    contents t ⟨.query format ext sel field false, out, ts⟩ doc = some b ↔
      ∃ els, t.retrieve sel doc = some els ∧ Written t (.many (els.filterMap (valueOf t field))) format b := by
  show queryBytes t doc format sel field false = some b ↔ _
  rw [query_iff]
  constructor
  · rintro ⟨els, hr, (⟨h, _⟩ | ⟨_, hw⟩)⟩
    · cases h
    · exact ⟨els, hr, hw⟩
  · rintro ⟨els, hr, hw⟩
    exact ⟨els, hr, .inr ⟨rfl, hw⟩⟩

/-- All of the elements are in the result if none lacks the field.
Missing: pretty output and output as text. -/
theorem query_all_partial (els : List El) (field : Option Text) (h : ∀ el ∈ els, (valueOf t field el).isSome) :
    (els.filterMap (valueOf t field)).map some = els.map (valueOf t field) := by
  induction els with
  | nil => rfl
  | cons e els ih =>
    obtain ⟨v, hv⟩ := Option.isSome_iff_exists.mp (h e (List.mem_cons_self ..))
    rw [List.filterMap_cons, hv, List.map_cons, List.map_cons, hv, ih fun x hx => h x (List.mem_cons_of_mem _ hx)]

/-- The text of several elements cannot be exported, not even of one: only queries for one element can be written as text. -/
theorem txt_many (doc : Doc Pg H) (sel : Text) (ext field : Option Text) (ts : List Transform) (out : Option Text) :
    contents t ⟨.query "txt".toList ext sel field false, out, ts⟩ doc = none := by
  cases h : contents t ⟨.query "txt".toList ext sel field false, out, ts⟩ doc with
  | none => rfl
  | some b =>
    obtain ⟨els, _, hw⟩ := (query_many doc _ sel ext field ts out b).mp h
    generalize hf : "txt".toList = f at hw
    cases hw with
    | json => exact absurd hf (by decide)
    | yaml => exact absurd hf (by decide)

/-- Other formats than JSON, YAML and text are refused. -/
theorem unknown_format (doc : Doc Pg H) (format sel : Text) (ext field : Option Text) (one : Bool) (ts : List Transform) (out : Option Text)
    (h1 : format ≠ "json".toList) (h2 : format ≠ "yaml".toList) (h3 : format ≠ "txt".toList) :
    contents t ⟨.query format ext sel field one, out, ts⟩ doc = none := by
  cases h : contents t ⟨.query format ext sel field one, out, ts⟩ doc with
  | none => rfl
  | some b =>
    have : ∃ d, Written t d format b := by
      cases one with
      | true =>
        obtain ⟨el, v, _, _, hw⟩ := (query_one doc format sel ext field ts out b).mp h
        exact ⟨_, hw⟩
      | false =>
        obtain ⟨els, _, hw⟩ := (query_many doc format sel ext field ts out b).mp h
        exact ⟨_, hw⟩
    obtain ⟨d, hw⟩ := this
    cases hw with
    | json => exact absurd rfl h1
    | yaml => exact absurd rfl h2
    | txt => exact absurd rfl h3

/-- Asking for pretty output, as the editor's command does unless told otherwise, changes nothing: JSON is written on one line. -/
theorem pretty_ignored (doc : Doc Pg H) (format sel : Text) (ext field : Option Text) (one : Bool) (ts : List Transform) (out : Option Text) :
    contents t ⟨.query format ext sel field one, out, ts ++ [.pretty]⟩ doc = contents t ⟨.query format ext sel field one, out, ts⟩ doc := rfl

/-! ## C171 -/

theorem writes_append (a b : List (Effect B)) : writes (a ++ b) = writes a ++ writes b := List.filterMap_append

theorem writes_mkdirs (l : List Text) : writes (l.map (Effect.mkdirs (B := B))) = [] := by
  induction l with
  | nil => rfl
  | cons x l ih => exact ih

theorem writes_lock (l : List Text) : writes (l.map (Effect.lock (B := B))) = [] := by
  induction l with
  | nil => rfl
  | cons x l ih => exact ih

/-- The directory that has to be made, and can be. -/
def DirReady (disk : Disk) (p : Text) : Prop := ∀ d, InDir p d → disk.present d = true ∨ disk.mkdirOk = true

theorem needs_iff {disk : Disk} {p : Text} (hp : isRelative p = false) :
    (((parentDir p).filter fun d => !disk.present d).isSome && !disk.mkdirOk) = false ↔ DirReady disk p := by
  unfold DirReady
  cases hd : parentDir p with
  | none =>
    simp only [Option.filter_none, Option.isSome_none, Bool.false_and, true_iff]
    intro d h
    rw [(inDir_iff hp).mpr h] at hd
    cases hd
  | some d =>
    have hin := (inDir_iff hp).mp hd
    have huniq : ∀ e, InDir p e → e = d := by
      intro e he
      have := (inDir_iff hp).mpr he
      rw [hd] at this
      exact (Option.some.inj this).symm
    constructor
    · intro h e he
      rw [huniq e he]
      cases hpd : disk.present d with
      | true => exact .inl rfl
      | false =>
        right
        simpa [Option.filter, hpd] using h
    · intro h
      rcases h d hin with h | h
      · simp [Option.filter, h]
      · simp [h]

theorem exportTo_ok {disk : Disk} {task : Task} {doc : Option (Doc Pg H)} {lockDir : Option Text} {w p : Text}
    (hw : isRelative w = false) :
    (exportTo t disk task doc lockDir w).2 = .ok (some p) ↔
      w = p ∧ DirReady disk p ∧ disk.writeOk = true ∧ ∃ d b, doc = some d ∧ contents t task d = some b := by
  unfold exportTo
  simp only
  cases hn : ((parentDir w).filter fun d => !disk.present d).isSome && !disk.mkdirOk with
  | true =>
    simp only [if_true]
    constructor
    · intro h; cases h
    · rintro ⟨rfl, hr, _⟩
      rw [(needs_iff hw).mpr hr] at hn
      cases hn
  | false =>
    simp only [Bool.false_eq_true, if_false]
    have hr := (needs_iff hw).mp hn
    cases doc with
    | none => simp
    | some d =>
      simp only
      cases hc : contents t task d with
      | none => simp [hc]
      | some b =>
        simp only
        cases hwr : disk.writeOk with
        | false => simp
        | true =>
          simp only [if_true, Outcome.ok.injEq, Option.some.injEq]
          constructor
          · rintro rfl
            exact ⟨rfl, hr, trivial, d, b, rfl, hc⟩
          · exact fun h => h.1

/-- An export succeeds with a file exactly if the pattern gives an absolute path that is not the name of a directory, the directory of the
file is there or can be made, there is a document and it can be exported, and the file can be written. The file is the one for the path and
the extension of the kind of export. -/
theorem exported_iff (disk : Disk) (tmp : Text) (entry : EntryState) (task : Task) (doc : Option (Doc Pg H)) (lockDir : Option Text) (p : Text) :
    (doExport t disk tmp entry task doc lockDir).2 = .ok (some p) ↔
      task.kind ≠ .preview ∧ ∃ q, PathPattern.substitute tmp (task.output.getD []) entry = some q ∧ (∃ r, q = '/' :: r) ∧
        disk.isDir q = false ∧ Target q (extensionOf task.kind) p ∧ DirReady disk p ∧ disk.writeOk = true ∧
        ∃ d b, doc = some d ∧ Content t d task.kind task.transform b := by
  unfold doExport
  by_cases hk : task.kind = .preview
  · simp [hk]
  rw [if_neg hk]
  cases hs : PathPattern.substitute tmp (task.output.getD []) entry with
  | none => simp
  | some q =>
    simp only [Option.some.injEq, exists_eq_left', ne_eq, hk, not_false_eq_true, true_and]
    cases hq : isRelative q with
    | true =>
      simp only [if_true]
      constructor
      · intro h; cases h
      · rintro ⟨hr, _⟩
        rw [absolute_iff.mpr hr] at hq
        cases hq
    | false =>
      have habs := absolute_iff.mp hq
      simp only [Bool.false_eq_true, if_false]
      cases hd : disk.isDir q with
      | true => simp
      | false =>
        simp only [Bool.false_eq_true, if_false, true_and]
        have ht := target_exists task.kind.extension hq
        rw [exportTo_ok (target_absolute ht hq), target_iff hq, extension_eq]
        have hc : (∃ d b, doc = some d ∧ contents t task d = some b) ↔ ∃ d b, doc = some d ∧ Content t d task.kind task.transform b := by
          constructor
          · rintro ⟨d, b, h1, h2⟩
            exact ⟨d, b, h1, (contents_iff_partial task hk d b).mp h2⟩
          · rintro ⟨d, b, h1, h2⟩
            exact ⟨d, b, h1, (contents_iff_partial task hk d b).mpr h2⟩
        rw [hc]
        simp only [habs, true_and]

theorem exportTo_writes {disk : Disk} {task : Task} {doc : Option (Doc Pg H)} {lockDir : Option Text} {w : Text} :
    (∃ d b, doc = some d ∧ contents t task d = some b ∧ (exportTo t disk task doc lockDir w).2 = .ok (some w) ∧
      writes (exportTo t disk task doc lockDir w).1 = [(w, b)]) ∨
    ((exportTo t disk task doc lockDir w).2 = .error ∧ writes (exportTo t disk task doc lockDir w).1 = []) := by
  unfold exportTo
  simp only
  split
  · exact .inr ⟨rfl, rfl⟩
  · cases doc with
    | none =>
      right
      simp only [true_and]
      rw [writes_append, writes_mkdirs, writes_lock]
      rfl
    | some d =>
      cases hc : contents t task d with
      | none =>
        right
        simp only [hc, true_and]
        rw [writes_append, writes_mkdirs, writes_lock]
        rfl
      | some b =>
        cases hw : disk.writeOk with
        | false =>
          right
          simp only [hc, Bool.false_eq_true, if_false, true_and]
          rw [writes_append, writes_mkdirs, writes_lock]
          rfl
        | true =>
          left
          refine ⟨d, b, rfl, hc, ?_, ?_⟩
          · simp only [hc, if_true]
          · simp only [hc, if_true]
            rw [writes_append, writes_append, writes_mkdirs, writes_lock]
            rfl

/-- A successful export writes one file, the one that is reported, with what was to be exported. -/
theorem written (disk : Disk) (tmp : Text) (entry : EntryState) (task : Task) (doc : Option (Doc Pg H)) (lockDir : Option Text) (p : Text)
    (h : (doExport t disk tmp entry task doc lockDir).2 = .ok (some p)) :
    ∃ d b, doc = some d ∧ Content t d task.kind task.transform b ∧ writes (doExport t disk tmp entry task doc lockDir).1 = [(p, b)] := by
  unfold doExport at h ⊢
  split at h
  · cases h
  rename_i hk
  rw [if_neg hk]
  cases hs : PathPattern.substitute tmp (task.output.getD []) entry with
  | none => rw [hs] at h; cases h
  | some q =>
    rw [hs] at h
    simp only at h ⊢
    split at h
    · cases h
    split at h
    · cases h
    rename_i h1 h2
    rw [if_neg h1, if_neg h2]
    rcases exportTo_writes (t := t) (disk := disk) (task := task) (doc := doc) (lockDir := lockDir)
      (w := withExtension q task.kind.extension) with ⟨d, b, hd, hb, ho, hw⟩ | ⟨ho, _⟩
    · rw [ho] at h
      cases h
      exact ⟨d, b, hd, (contents_iff_partial task hk d b).mp hb, hw⟩
    · rw [ho] at h
      cases h

/-- An export that fails, or that has no path, writes no file.
Missing: the directory and the entry of the lock file of a document that does not compile. -/
theorem unfinished_partial (disk : Disk) (tmp : Text) (entry : EntryState) (task : Task) (doc : Option (Doc Pg H)) (lockDir : Option Text)
    (h : ∀ p, (doExport t disk tmp entry task doc lockDir).2 ≠ .ok (some p)) :
    writes (doExport t disk tmp entry task doc lockDir).1 = [] := by
  unfold doExport at h ⊢
  split
  · rfl
  rename_i hk
  rw [if_neg hk] at h
  cases hs : PathPattern.substitute tmp (task.output.getD []) entry with
  | none => rfl
  | some q =>
    rw [hs] at h
    simp only at h ⊢
    split
    · rfl
    split
    · rfl
    rename_i h1 h2
    rw [if_neg h1, if_neg h2] at h
    rcases exportTo_writes (t := t) (disk := disk) (task := task) (doc := doc) (lockDir := lockDir)
      (w := withExtension q task.kind.extension) with ⟨d, b, hd, hb, ho, hw⟩ | ⟨_, hw⟩
    · exact absurd ho (h _)
    · exact hw

/-- What else an export does: it makes the directory of the file, if that is missing, and notes the task in the lock file. -/
theorem side_effects (disk : Disk) (tmp : Text) (entry : EntryState) (task : Task) (doc : Option (Doc Pg H)) (lockDir : Option Text)
    (e : Effect B) (he : e ∈ (doExport t disk tmp entry task doc lockDir).1) :
    (∃ p b, e = .write p b) ∨ (∃ d, e = .lock d ∧ lockDir = some d) ∨
    ∃ d q p, e = .mkdirs d ∧ PathPattern.substitute tmp (task.output.getD []) entry = some q ∧ Target q (extensionOf task.kind) p ∧
      InDir p d ∧ disk.present d = false ∧ disk.mkdirOk = true := by
  unfold doExport at he
  split at he
  · cases he
  cases hs : PathPattern.substitute tmp (task.output.getD []) entry with
  | none => rw [hs] at he; cases he
  | some q =>
    rw [hs] at he
    simp only at he
    split at he
    · cases he
    split at he
    · cases he
    rename_i hq hd
    have hq : isRelative q = false := by simpa using hq
    have ht := target_exists (extensionOf task.kind) hq
    rw [← extension_eq] at ht ⊢
    have hw := target_absolute ht hq
    have pre : e ∈ ((parentDir (withExtension q task.kind.extension)).filter fun d => !disk.present d).toList.map Effect.mkdirs ++
        lockDir.toList.map Effect.lock →
        ¬(((parentDir (withExtension q task.kind.extension)).filter fun d => !disk.present d).isSome && !disk.mkdirOk) = true →
        (∃ d, e = .lock d ∧ lockDir = some d) ∨
        ∃ d q' p, e = .mkdirs d ∧ some q = some q' ∧ Target q' task.kind.extension p ∧ InDir p d ∧ disk.present d = false ∧
          disk.mkdirOk = true := by
      intro hmem hready
      rcases List.mem_append.mp hmem with h | h
      · obtain ⟨d, hd, rfl⟩ := List.mem_map.mp h
        rw [Option.mem_toList] at hd
        obtain ⟨h1, h2⟩ := Option.filter_eq_some_iff.mp hd
        have hd : ((parentDir (withExtension q task.kind.extension)).filter fun d => !disk.present d) = some d := hd
        refine .inr ⟨d, q, _, rfl, rfl, ht, (inDir_iff hw).mp h1, by simpa using h2, ?_⟩
        rw [hd] at hready
        simpa using hready
      · obtain ⟨d, hd, rfl⟩ := List.mem_map.mp h
        rw [Option.mem_toList] at hd
        exact .inl ⟨d, rfl, hd⟩
    unfold exportTo at he
    simp only at he
    split at he
    · cases he
    rename_i hready
    split at he
    · exact .inr (pre he hready)
    · split at he
      · exact .inr (pre he hready)
      · split at he
        · rcases List.mem_append.mp he with h | h
          · exact .inr (pre h hready)
          · rw [List.mem_singleton] at h
            exact .inl ⟨_, _, h⟩
        · exact .inr (pre he hready)

/-- Only a preview cannot be exported at all, and that ends the program's task. -/
theorem panic_iff (disk : Disk) (tmp : Text) (entry : EntryState) (task : Task) (doc : Option (Doc Pg H)) (lockDir : Option Text) :
    (doExport t disk tmp entry task doc lockDir).2 = .panic ↔ task.kind = .preview := by
  unfold doExport
  by_cases hk : task.kind = .preview
  · simp [hk]
  rw [if_neg hk]
  simp only [hk, iff_false]
  cases PathPattern.substitute tmp (task.output.getD []) entry with
  | none => simp
  | some q =>
    simp only
    split
    · simp
    split
    · simp
    rcases exportTo_writes (t := t) (disk := disk) (task := task) (doc := doc) (lockDir := lockDir)
      (w := withExtension q task.kind.extension) with ⟨d, b, hd, hb, ho, hw⟩ | ⟨ho, hw⟩
    · rw [ho]; simp
    · rw [ho]; simp

/-- An export of a document that does not compile is an error and writes nothing, but the directory for it is made and the task is noted in the
lock file all the same. -/
theorem failed_touches (disk : Disk) (tmp : Text) (entry : EntryState) (task : Task) (lock : Text) (q p d : Text) (hk : task.kind ≠ .preview)
    (hs : PathPattern.substitute tmp (task.output.getD []) entry = some q) (hq : ∃ r, q = '/' :: r) (hdir : disk.isDir q = false)
    (ht : Target q (extensionOf task.kind) p) (hd : InDir p d) (hm : disk.present d = false) (hmk : disk.mkdirOk = true) :
    doExport t disk tmp entry task none (some lock) = ([.mkdirs d, .lock lock], .error) := by
  unfold doExport
  have hrel := absolute_iff.mpr hq
  rw [if_neg hk, hs]
  simp only [hrel, hdir, Bool.false_eq_true, if_false]
  rw [← extension_eq, ← target_iff hrel] at ht
  rw [ht]
  have hp : isRelative p = false := target_absolute (ht ▸ target_exists _ hrel) hrel
  unfold exportTo
  simp only
  rw [(inDir_iff hp).mpr hd]
  simp [Option.filter, hm, hmk]

/-- A directory with the name the pattern gives stops every export, although the file to write has another name. -/
theorem directory_blocks (disk : Disk) (tmp : Text) (entry : EntryState) (task : Task) (doc : Option (Doc Pg H)) (lockDir : Option Text)
    (q : Text) (hk : task.kind ≠ .preview) (hs : PathPattern.substitute tmp (task.output.getD []) entry = some q)
    (hdir : disk.isDir q = true) : doExport t disk tmp entry task doc lockDir = ([], .error) := by
  unfold doExport
  rw [if_neg hk, hs]
  simp only [hdir, if_true]
  split <;> rfl

/-- Whether the file to write is a directory is not asked. -/
theorem directory_missed (disk : Disk) (tmp : Text) (entry : EntryState) (task : Task) (doc : Option (Doc Pg H)) (lockDir : Option Text)
    (q : Text) (hs : PathPattern.substitute tmp (task.output.getD []) entry = some q) (isDir : Text → Bool)
    (hsame : isDir q = disk.isDir q) :
    doExport t { disk with isDir := isDir } tmp entry task doc lockDir = doExport t disk tmp entry task doc lockDir := by
  unfold doExport
  rw [hs]
  simp only [hsame]
  rfl

/-- What is after the last dot of the pattern's path is lost: paths that differ only there are exported to the same file. -/
theorem same_target (dir s x y ext : Text) (hs : s ≠ []) (hs2 : '/' ∉ s) (hx : '.' ∉ x ∧ '/' ∉ x) (hy : '.' ∉ y ∧ '/' ∉ y) :
    ∃ p, Target (dir ++ '/' :: (s ++ '.' :: x)) ext p ∧ Target (dir ++ '/' :: (s ++ '.' :: y)) ext p :=
  ⟨_, .file dir _ ext s (by simp) (by simp [hs2, hx.2]) (.cut s x hs hx.1), .file dir _ ext s (by simp) (by simp [hs2, hy.2]) (.cut s y hs hy.1)⟩

/-! ## The editor's command -/

theorem onExport_result (disk : Disk) (tmp : Text) (entry : EntryState) (task : Task) (lockDir : Option Text) (openIt : Bool) :
    (onExport t disk tmp entry task lockDir openIt).2 = (doExport t disk tmp entry task (compiledFor t task.kind) lockDir).2 := by
  unfold onExport
  split
  · rename_i heq
    rw [heq]
  · rfl

/-- A file is opened exactly if that was asked for and it has been exported. -/
theorem opened_iff (disk : Disk) (tmp : Text) (entry : EntryState) (task : Task) (lockDir : Option Text) (openIt : Bool) (p : Text) :
    Effect.opened p ∈ (onExport t disk tmp entry task lockDir openIt).1 ↔
      openIt = true ∧ (onExport t disk tmp entry task lockDir openIt).2 = .ok (some p) := by
  rw [onExport_result]
  have no : Effect.opened p ∉ (doExport t disk tmp entry task (compiledFor t task.kind) lockDir).1 := by
    intro h
    rcases side_effects disk tmp entry task _ lockDir _ h with ⟨_, _, h⟩ | ⟨_, h, _⟩ | ⟨_, _, _, h, _⟩ <;> cases h
  unfold onExport
  split
  · rename_i effs res heq
    rw [heq] at no ⊢
    simp only [List.mem_append, no, false_or, Outcome.ok.injEq]
    constructor
    · rintro (h | h)
      · obtain ⟨_, _, h⟩ := List.mem_map.mp h
        cases h
      · cases openIt with
        | false => cases h
        | true =>
          simp only [if_true] at h
          obtain ⟨x, hx, h⟩ := List.mem_map.mp h
          cases h
          rw [Option.mem_toList] at hx
          exact ⟨rfl, hx⟩
    · rintro ⟨rfl, rfl⟩
      simp
  · rename_i hne
    simp only [no, false_iff]
    rintro ⟨_, h⟩
    exact hne _ _ (Prod.ext rfl h)

/-- The editor's command writes what `doExport` writes. -/
theorem onExport_writes (disk : Disk) (tmp : Text) (entry : EntryState) (task : Task) (lockDir : Option Text) (openIt : Bool) :
    writes (onExport t disk tmp entry task lockDir openIt).1 = writes (doExport t disk tmp entry task (compiledFor t task.kind) lockDir).1 := by
  have hd : ∀ l : List Text, writes (l.map (Effect.lockDeps (B := B))) = [] := by
    intro l
    induction l with
    | nil => rfl
    | cons x l ih => exact ih
  have ho : ∀ l : List Text, writes (l.map (Effect.opened (B := B))) = [] := by
    intro l
    induction l with
    | nil => rfl
    | cons x l ih => exact ih
  unfold onExport
  split
  · rename_i effs res heq
    rw [heq, writes_append, writes_append, hd]
    cases openIt with
    | false => simp [writes]
    | true => simp [ho]
  · rfl

/-- What the editor's command writes comes from a compilation for the format: to HTML for HTML, to pages for all others. -/
theorem editor_contents (disk : Disk) (tmp : Text) (entry : EntryState) (task : Task) (lockDir : Option Text) (openIt : Bool) (p : Text)
    (h : (onExport t disk tmp entry task lockDir openIt).2 = .ok (some p)) :
    ∃ b, writes (onExport t disk tmp entry task lockDir openIt).1 = [(p, b)] ∧
      ((task.kind = .html ∧ ∃ x, t.compileHtml = some x ∧ t.html x = some b) ∨
       (task.kind ≠ .html ∧ ∃ ps, t.compilePaged = some ps ∧ Content t (.paged ps) task.kind task.transform b)) := by
  rw [onExport_result] at h
  obtain ⟨d, b, hd, hc, hw⟩ := written disk tmp entry task _ lockDir p h
  refine ⟨b, by rw [onExport_writes, hw], ?_⟩
  unfold compiledFor at hd
  split at hd
  · rename_i hk
    obtain ⟨x, hx, rfl⟩ := Option.map_eq_some_iff.mp hd
    rw [hk] at hc
    cases hc with
    | html _ y _ hy hb =>
      cases hy
      exact .inl ⟨hk, x, hx, hb⟩
  · rename_i hk
    obtain ⟨ps, hps, rfl⟩ := Option.map_eq_some_iff.mp hd
    exact .inr ⟨hk, ps, hps, hc⟩

/-- The dependencies of an export are noted in the lock file only when it did not fail. -/
theorem deps_noted (disk : Disk) (tmp : Text) (entry : EntryState) (task : Task) (lockDir : Option Text) (openIt : Bool) (d : Text) :
    Effect.lockDeps d ∈ (onExport t disk tmp entry task lockDir openIt).1 ↔
      lockDir = some d ∧ ∃ r, (onExport t disk tmp entry task lockDir openIt).2 = .ok r := by
  rw [onExport_result]
  have no : Effect.lockDeps d ∉ (doExport t disk tmp entry task (compiledFor t task.kind) lockDir).1 := by
    intro h
    rcases side_effects disk tmp entry task _ lockDir _ h with ⟨_, _, h⟩ | ⟨_, h, _⟩ | ⟨_, _, _, h, _⟩ <;> cases h
  unfold onExport
  split
  · rename_i effs res heq
    rw [heq] at no ⊢
    simp only [List.mem_append, no, false_or, Outcome.ok.injEq, exists_eq', and_true]
    constructor
    · rintro (h | h)
      · obtain ⟨x, hx, h⟩ := List.mem_map.mp h
        cases h
        rw [Option.mem_toList] at hx
        exact hx
      · cases openIt with
        | false => cases h
        | true =>
          simp only [if_true] at h
          obtain ⟨x, hx, h⟩ := List.mem_map.mp h
          cases h
    · rintro rfl
      left
      simp
  · rename_i hne
    simp only [no, false_iff]
    rintro ⟨_, r, h⟩
    exact hne _ _ (Prod.ext rfl h)

end

/-! ## Examples -/

/-- Pages are numbers; a file holds a list of numbers. -/
def exTools : Tools Nat Nat Nat Nat Nat (List Int) where
  empty := []
  pdf := fun ps _ _ => some (ps.map Int.ofNat)
  html := fun h => some [h]
  svgHtml := fun ps => ps.map Int.ofNat
  text := fun _ => some [7]
  markdown := some [8]
  svgPage := fun p => [p]
  svgMerged := fun ps g => Int.ofNat g :: ps.map Int.ofNat
  pngPage := fun p ppi => some [p, ppi]
  pngMerged := fun ps ppi g c => some (ppi :: Int.ofNat g :: (if c = .red then 1 else 0) :: ps.map Int.ofNat)
  compileHtml := some 100
  compilePaged := some [1, 2]
  retrieve := fun _ _ => some [3, 4]
  field := fun el _ => if el = 3 then some 30 else none
  whole := fun el => el
  json := fun
    | .one v => some [v]
    | .many vs => some (vs.map Int.ofNat)
  jsonPretty := fun _ => some [0]
  yaml := fun _ => none
  string := fun v => some [v]
  hexOk := fun d => d.length == 6
  length := fun g => if g = "5pt".toList then some 5 else none
  noGap := 0

def exEntry : EntryState := ⟨some "/w".toList, some ⟨none, [.root, .normal "d".toList, .normal "main.typ".toList]⟩⟩

def exDisk : Disk := ⟨fun p => p = "/w/out".toList, fun p => p = "/w".toList ∨ p = "/w/d".toList, true, true⟩

example : exportTo exTools exDisk ⟨.png 2000 (some "red".toList), none, [.merge (some "5pt".toList)]⟩ (some (.paged [1, 2])) (some "/w".toList)
    (withExtension "/w/x/main.typ".toList "png".toList) =
    ([.mkdirs "/w/x".toList, .lock "/w".toList, .write "/w/x/main.png".toList [2000, 5, 1, 1, 2]], .ok (some "/w/x/main.png".toList)) := rfl

example : PathPattern.substitute "/tmp".toList "$root/out/$name".toList exEntry = some "/w/out/main.typ".toList := by decide +kernel

/-- A whole export, and the same one stopped by a directory. -/
example : (doExport exTools exDisk "/tmp".toList exEntry ⟨.pdf [] none, some "$root/x/$name".toList, []⟩ (some (.paged [1, 2])) none).2 =
    .ok (some "/w/x/main.pdf".toList) := by decide +kernel

example : (doExport exTools exDisk "/tmp".toList exEntry ⟨.pdf [] none, some "$root/out".toList, []⟩ (some (.paged [1, 2])) none).2 = .error := by
  decide +kernel

example : contents exTools ⟨.query "json".toList none "heading".toList (some "body".toList) false, none, [.pretty]⟩ (.paged [1]) = some [30] := rfl

example : Target "/w/x/report.v1.typ".toList "pdf".toList "/w/x/report.v1.pdf".toList :=
  .file "/w/x".toList "report.v1.typ".toList "pdf".toList "report.v1".toList (by decide) (by decide)
    (.cut "report.v1".toList "typ".toList (by decide) (by decide))

example : InDir "/w/x/main.png".toList "/w/x".toList := .sub "/w/x".toList "main.png".toList (by decide) (by decide) (by decide)

end Tinymist.Exporting
