import Verif.Lemmas.Bib

/-!
# C94, C95: the entries of bibliographies
-/

namespace Tinymist.Bib

theorem bytes_append (a b : List Char) : bytes (a ++ b) = bytes a + bytes b := by simp [bytes]

theorem bytes_take_le (s : List Char) {m n : Nat} (h : m ≤ n) : bytes (s.take m) ≤ bytes (s.take n) := by
  obtain ⟨k, rfl⟩ : ∃ k, n = m + k := ⟨n - m, by omega⟩
  rw [List.take_add, bytes_append]
  omega

theorem lookup_boundary {text : List Char} {c : List (Spanned × Nat × Nat)} {k n : Nat}
    (h : (charMap text (offsets c)).lookup k = some n) : k ≤ text.length ∧ n = bytes (text.take k) := by
  rw [charMap_lookup] at h
  split at h
  · rename_i hk
    exact ⟨hk.2, by simpa using h.symm⟩
  · cases h

theorem boundary_take (text : List Char) (k : Nat) : Boundary text (bytes (text.take k)) :=
  ⟨text.take k, text.drop k, (List.take_append_drop k text).symm, rfl⟩

theorem content_names (events : List (Event × Nat)) : ∀ l : Loader,
    (∀ c ∈ l.content, c.1.start ≤ c.1.stop) → (∀ s, l.start = some s → s.start ≤ s.stop) →
    (∀ s, l.key = some s → s.start ≤ s.stop) → ∀ c ∈ (events.foldl onEvent l).content, c.1.start ≤ c.1.stop := by
  induction events with
  | nil => intro l h _ _; exact h
  | cons e events ih =>
    intro l h1 h2 h3
    rw [List.foldl_cons]
    obtain ⟨e, m⟩ := e
    cases e with
    | mappingStart =>
      simp only [onEvent]
      split
      · exact ih _ h1 h3 (by simp)
      · exact ih _ h1 h2 h3
    | mappingEnd =>
      simp only [onEvent]
      split
      · cases hs : l.start with
        | none => exact ih _ h1 (by simp) h3
        | some s =>
          refine ih _ ?_ (by simp) h3
          intro c hc
          rcases List.mem_append.mp hc with hc | hc
          · exact h1 c hc
          · simp at hc; subst hc; exact h2 s hs
      · exact ih _ h1 h2 h3
    | scalar s =>
      simp only [onEvent]
      split
      · exact ih _ h1 h2 (by simp)
      · exact ih _ h1 h2 h3
    | other => exact ih _ h1 h2 h3

/-- **C94.** Whatever the YAML parser reports, the positions given for an entry are between characters of the text, and the
name does not end before it begins. -/
theorem positions_between_characters (text : List Char) (events : List (Event × Nat)) {k : List Char} {p : Place}
    (h : (k, p) ∈ yamlEntries text events) : Boundary text p.name.1 ∧ Boundary text p.name.2 ∧ p.name.1 ≤ p.name.2 ∧
      Boundary text p.range.1 ∧ Boundary text p.range.2 := by
  rw [yamlEntries, List.mem_filterMap] at h
  obtain ⟨c, hc, h⟩ := h
  have hle := content_names events ⟨0, none, none, []⟩ (by simp) (by simp) (by simp) c hc
  unfold toEntry at h
  split at h
  · rename_i n r hn hr
    simp only [Option.some.injEq, Prod.mk.injEq] at h
    obtain ⟨_, rfl⟩ := h
    unfold mapRange at hn hr
    split at hn
    · rename_i a b ha hb
      split at hr
      · rename_i a' b' ha' hb'
        cases hn; cases hr
        simp only
        rw [(lookup_boundary ha).2, (lookup_boundary hb).2, (lookup_boundary ha').2, (lookup_boundary hb').2]
        exact ⟨boundary_take _ _, boundary_take _ _, bytes_take_le _ hle, boundary_take _ _, boundary_take _ _⟩
      · cases hr
    · cases hn
  · cases h

theorem slice_take {text : List Char} {a b : Nat} (hab : a ≤ b) (hb : b ≤ text.length) :
    Slice text (bytes (text.take a)) (bytes (text.take b)) ((text.drop a).take (b - a)) := by
  have e : text.take a ++ (text.drop a).take (b - a) = text.take b := by
    obtain ⟨k, rfl⟩ : ∃ k, b = a + k := ⟨b - a, by omega⟩
    rw [List.take_add, Nat.add_sub_cancel_left]
  exact ⟨text.take a, text.drop b, by rw [e, List.take_append_drop], rfl, by rw [e]⟩

/-- What is given for one item. -/
theorem item_entry {text : List Char} {items : List Item} {i : Item} (hi : i ∈ items) (hv : Verbatim text i) :
    toEntry (charMap text (offsets (items.map Item.content))) i.content =
      some (i.key, ⟨(bytes (text.take i.mark), bytes (text.take (i.mark + i.key.length))),
        (bytes (text.take i.mark), bytes (text.take i.stop))⟩) := by
  obtain ⟨_, h1, h2⟩ := hv
  have hm : ∀ x, x = i.mark ∨ x = i.mark + i.key.length ∨ x = i.stop →
      (charMap text (offsets (items.map Item.content))).lookup x = some (bytes (text.take x)) := by
    intro x hx
    rw [charMap_lookup, if_pos]
    refine ⟨(offsets_mem _ _).mpr ⟨i.content, List.mem_map.mpr ⟨i, hi, rfl⟩, ?_⟩, by omega⟩
    simp only [Item.content]
    omega
  simp only [toEntry, mapRange, Item.content, hm _ (.inl rfl), hm _ (.inr (.inl rfl)), hm _ (.inr (.inr rfl))]

/-- **C94.** Every entry of a YAML bibliography is found, in the order of the text: its name is the key and its range
extends from the key to the end of its fields, whatever is nested in these. Missing: keys that do not stand in the text as
they are, see `quoted_key_misplaced`, and values that are no mappings, see `alias_missed`. -/
theorem entries_found_partial {text : List Char} {items : List Item} (stop : Nat) (hv : ∀ i ∈ items, Verbatim text i) :
    (yamlEntries text (document items stop)).map (·.1) = items.map (·.key) ∧
      ∀ (n : Nat) (i : Item), items[n]? = some i → ∃ p, (yamlEntries text (document items stop))[n]? = some (i.key, p) ∧
        Slice text p.name.1 p.name.2 i.key ∧ Slice text p.range.1 p.range.2 ((text.drop i.mark).take (i.stop - i.mark)) := by
  have e : yamlEntries text (document items stop) = items.map fun i =>
      (i.key, (⟨(bytes (text.take i.mark), bytes (text.take (i.mark + i.key.length))),
        (bytes (text.take i.mark), bytes (text.take i.stop))⟩ : Place)) := by
    rw [yamlEntries, load_document, List.filterMap_map]
    have : ∀ l : List Item, (∀ i ∈ l, i ∈ items) →
        l.filterMap (toEntry (charMap text (offsets (items.map Item.content))) ∘ Item.content) = l.map fun i =>
          (i.key, (⟨(bytes (text.take i.mark), bytes (text.take (i.mark + i.key.length))),
            (bytes (text.take i.mark), bytes (text.take i.stop))⟩ : Place)) := by
      intro l
      induction l with
      | nil => intro _; rfl
      | cons i l ih =>
        intro h
        rw [List.filterMap_cons, Function.comp_apply, item_entry (h i (List.mem_cons_self ..)) (hv i (h i (List.mem_cons_self ..))),
          ih fun j hj => h j (List.mem_cons_of_mem _ hj)]
        rfl
    exact this items fun _ h => h
  rw [e]
  refine ⟨by rw [List.map_map]; rfl, fun n i hn => ⟨_, by rw [List.getElem?_map, hn]; rfl, ?_, ?_⟩⟩
  · obtain ⟨⟨pre, post, ht, hl⟩, _⟩ := hv i (List.mem_of_getElem? hn)
    refine ⟨pre, post, ht, ?_, ?_⟩
    · rw [ht, ← hl, List.append_assoc, List.take_left]
    · simp only
      rw [ht, ← hl, ← List.length_append, List.take_left]
  · obtain ⟨_, h1, h2⟩ := hv i (List.mem_of_getElem? hn)
    exact slice_take (by omega) h2

/-- **C94, violated.** The name given for a quoted key is not the key: it begins with the quote and lacks the last letter. -/
theorem quoted_key_misplaced :
    yamlEntries "\"ab\": {t: x}".toList (document [⟨"ab".toList, 0, 6, [.scalar 7 ['t'], .scalar 10 ['x']], 11⟩] 12) =
      [("ab".toList, ⟨(0, 2), (0, 11)⟩)] ∧ Slice "\"ab\": {t: x}".toList 0 2 "\"a".toList := by
  constructor
  · simp [yamlEntries, load_document, Item.content, offsets, dedup, List.mergeSort, List.MergeSort.Internal.splitInTwo,
      charMap, walk, toEntry, mapRange, List.lookup]
    decide
  · exact ⟨[], "b\": {t: x}".toList, by decide, by decide, by decide⟩

/-- **C94, violated.** An entry whose value repeats another by an alias is not found. -/
theorem alias_missed : (load ((.other, 0) :: (Yaml.mapping 0 [.scalar 0 ['a'], .mapping 3 [] 5, .scalar 6 ['b'], .alias 9] 11).events)).content =
    [(⟨['a'], 0, 1⟩, 0, 5)] := by
  simp only [Yaml.events, eventsOf]
  decide

/-- The hypothesis of `entries_found_partial` holds for two entries, the second with a letter of two bytes. -/
example : ∀ i ∈ [(⟨"é".toList, 0, 3, [.scalar 4 ['t'], .sequence 7 [.mapping 8 [] 9] 10], 11⟩ : Item), ⟨"bü".toList, 13, 17, [], 18⟩],
    Verbatim "é: {t: [{}]}\nbü: {}".toList i := by
  intro i hi
  simp at hi
  rcases hi with rfl | rfl
  · exact ⟨⟨[], ": {t: [{}]}\nbü: {}".toList, by decide, rfl⟩, by decide, by decide⟩
  · exact ⟨⟨"é: {t: [{}]}".toList ++ ['\n'], ": {}".toList, by decide, by decide⟩, by decide, by decide⟩

/-! ## Several files -/

variable {D : Type}

theorem lookup_insert {V : Type} (k k' : List Char) (v : V) (l : List (List Char × V)) :
    (insert k v l).lookup k' = if k' = k then some v else l.lookup k' := by
  induction l with
  | nil =>
    simp only [insert, List.lookup_cons, List.lookup_nil]
    by_cases h : k' = k
    · simp [h]
    · rw [show (k' == k) = false by simpa using h]; simp [h]
  | cons x l ih =>
    obtain ⟨a, b⟩ := x
    rw [insert]
    split
    · rename_i e; subst e
      rw [List.lookup_cons, List.lookup_cons]
      by_cases h : k' = a
      · simp [h]
      · rw [show (k' == a) = false by simpa using h]; simp [h]
    · rename_i e
      rw [List.lookup_cons, List.lookup_cons, ih]
      by_cases h : k' = a
      · subst h; simp [e]
      · rw [show (k' == a) = false by simpa using h]

theorem lookup_setDetails (k k' : List Char) (d : D) (l : List (List Char × Entry D)) :
    (setDetails k d l).lookup k' = (l.lookup k').map fun e => if k' = k then { e with details := some d } else e := by
  induction l with
  | nil => rfl
  | cons x l ih =>
    obtain ⟨a, b⟩ := x
    rw [setDetails]
    split
    · rename_i e; subst e
      rw [List.lookup_cons, List.lookup_cons]
      by_cases h : k' = a
      · subst h; simp
      · rw [show (k' == a) = false by simpa using h]
        simp [h]
    · rename_i e
      rw [List.lookup_cons, List.lookup_cons, ih]
      by_cases h : k' = a
      · subst h; simp [e]
      · rw [show (k' == a) = false by simpa using h]

theorem insert_keys {V : Type} (k : List Char) (v : V) (l : List (List Char × V)) :
    (insert k v l).map (·.1) = if k ∈ l.map (·.1) then l.map (·.1) else l.map (·.1) ++ [k] := by
  induction l with
  | nil => rfl
  | cons x l ih =>
    obtain ⟨a, b⟩ := x
    rw [insert]
    split
    · rename_i e; subst e; simp
    · rename_i e
      rw [List.map_cons, ih]
      by_cases h : k ∈ l.map (·.1)
      · rw [if_pos h, if_pos (by rw [List.map_cons]; exact List.mem_cons_of_mem _ h)]; rfl
      · rw [if_neg h, if_neg (by rw [List.map_cons, List.mem_cons]; exact fun h' => h'.elim (fun e' => e e'.symm) h)]; rfl

theorem setDetails_keys (k : List Char) (d : D) (l : List (List Char × Entry D)) :
    (setDetails k d l).map (·.1) = l.map (·.1) := by
  induction l with
  | nil => rfl
  | cons x l ih =>
    obtain ⟨a, b⟩ := x
    rw [setDetails]
    split
    · rfl
    · simp [ih]

theorem exists_last {V : Type} {k : List Char} {v : V} {l : List (List Char × V)} (h : (k, v) ∈ l) : ∃ v, Last k v l := by
  induction l generalizing v with
  | nil => cases h
  | cons x l ih =>
    by_cases hl : ∃ w, (k, w) ∈ l
    · obtain ⟨w, hw⟩ := hl
      obtain ⟨v, a, b, rfl, hb⟩ := ih hw
      exact ⟨v, x :: a, b, rfl, hb⟩
    · rcases List.mem_cons.mp h with rfl | h
      · exact ⟨v, [], l, rfl, fun v' hv => hl ⟨v', hv⟩⟩
      · exact (hl ⟨v, h⟩).elim

theorem insert_none {V W : Type} {k : List Char} (g : V → W) {es : List (List Char × V)} (h : ∀ v, (k, v) ∉ es)
    (m : List (List Char × W)) : (es.foldl (fun m e => insert e.1 (g e.2) m) m).lookup k = m.lookup k := by
  induction es generalizing m with
  | nil => rfl
  | cons e es ih =>
    rw [List.foldl_cons, ih fun v hv => h v (List.mem_cons_of_mem _ hv), lookup_insert, if_neg]
    rintro rfl
    exact h e.2 (List.mem_cons_self ..)

theorem insert_last {V W : Type} {k : List Char} {v : V} (g : V → W) {es : List (List Char × V)} (h : Last k v es)
    (m : List (List Char × W)) : (es.foldl (fun m e => insert e.1 (g e.2) m) m).lookup k = some (g v) := by
  obtain ⟨a, b, rfl, hb⟩ := h
  rw [List.foldl_append, List.foldl_cons, insert_none g hb, lookup_insert, if_pos rfl]

theorem details_none {k : List Char} {ds : List (List Char × D)} (h : ∀ d, (k, d) ∉ ds) (m : List (List Char × Entry D)) :
    (ds.foldl (fun m d => setDetails d.1 d.2 m) m).lookup k = m.lookup k := by
  induction ds generalizing m with
  | nil => rfl
  | cons d ds ih =>
    rw [List.foldl_cons, ih fun v hv => h v (List.mem_cons_of_mem _ hv), lookup_setDetails]
    have : k ≠ d.1 := by
      rintro rfl
      exact h d.2 (List.mem_cons_self ..)
    simp [this]

theorem details_some {k : List Char} (ds : List (List Char × D)) (m : List (List Char × Entry D)) {e : Entry D}
    (he : m.lookup k = some e) : ∃ e', (ds.foldl (fun m d => setDetails d.1 d.2 m) m).lookup k = some e' ∧
      e'.file = e.file ∧ e'.place = e.place := by
  induction ds generalizing m e with
  | nil => exact ⟨e, he, rfl, rfl⟩
  | cons d ds ih =>
    rw [List.foldl_cons]
    obtain ⟨e', h1, h2, h3⟩ := ih (setDetails d.1 d.2 m) (by rw [lookup_setDetails, he]; rfl)
    refine ⟨e', h1, ?_, ?_⟩
    · rw [h2]; split <;> rfl
    · rw [h3]; split <;> rfl

theorem details_last {k : List Char} {d : D} {ds : List (List Char × D)} (h : Last k d ds)
    (m : List (List Char × Entry D)) {e : Entry D} (he : m.lookup k = some e) :
    (ds.foldl (fun m d => setDetails d.1 d.2 m) m).lookup k = some { e with details := some d } := by
  obtain ⟨a, b, rfl, hb⟩ := h
  rw [List.foldl_append, List.foldl_cons, details_none hb, lookup_setDetails]
  obtain ⟨e', h1, h2, h3⟩ := details_some a m he
  rw [h1]
  simp [h2, h3]

theorem knownExtension_iff (ext : List Char) : knownExtension ext = true ↔ Bibliography ext := by
  simp [knownExtension, Bibliography]

theorem analyze_has {f : File D} {es : List (List Char × Place)} (h : Has f es) (m : List (List Char × Entry D)) :
    analyze m f = (f.details.getD []).foldl (fun m d => setDetails d.1 d.2 m)
      (es.foldl (fun m e => insert e.1 ⟨f.id, e.2, none⟩ m) m) := by
  obtain ⟨⟨ext, h1, h2⟩, h3⟩ := h
  simp only [analyze, h1, h3]
  rw [if_pos ((knownExtension_iff ext).mpr h2)]

theorem analyze_not {f : File D} (h : ∀ es, ¬ Has f es) (m : List (List Char × Entry D)) : analyze m f = m := by
  unfold analyze
  split
  · rename_i ext es h1 h2
    rw [if_neg]
    exact fun hk => h es ⟨⟨ext, h1, (knownExtension_iff ext).mp hk⟩, h2⟩
  · rfl

theorem analyze_keeps {f : File D} {k : List Char} (hs : Sound f) (h : ¬ Defines f k) (m : List (List Char × Entry D)) :
    (analyze m f).lookup k = m.lookup k := by
  by_cases hh : ∃ es, Has f es
  · obtain ⟨es, hh⟩ := hh
    rw [analyze_has hh, details_none, insert_none (fun p => (⟨f.id, p, none⟩ : Entry D))]
    · exact fun v hv => h ⟨es, hh, v, hv⟩
    · intro d hd
      cases hds : f.details with
      | none => rw [hds] at hd; cases hd
      | some ds =>
        rw [hds] at hd
        obtain ⟨p, hp⟩ := hs es ds k d hh hds hd
        exact h ⟨es, hh, p, hp⟩
  · rw [analyze_not fun es he => hh ⟨es, he⟩]

theorem fold_keeps {k : List Char} {fs : List (File D)} (hs : ∀ f ∈ fs, Sound f) (h : ∀ f ∈ fs, ¬ Defines f k)
    (m : List (List Char × Entry D)) : (fs.foldl analyze m).lookup k = m.lookup k := by
  induction fs generalizing m with
  | nil => rfl
  | cons f fs ih =>
    rw [List.foldl_cons, ih (fun g hg => hs g (List.mem_cons_of_mem _ hg)) (fun g hg => h g (List.mem_cons_of_mem _ hg)),
      analyze_keeps (hs f (List.mem_cons_self ..)) (h f (List.mem_cons_self ..))]

/-- **C95.** A key leads to its last definition, in the last file that has it, and the details shown are those of this
file. -/
theorem last_definition {pre post : List (File D)} {f : File D} {es : List (List Char × Place)} {k : List Char} {p : Place}
    (hf : Has f es) (hp : Last k p es) (hpost : ∀ g ∈ post, ¬ Defines g k) (hs : ∀ g ∈ post, Sound g) :
    ∃ e, (bibInfo (pre ++ f :: post)).lookup k = some e ∧ e.file = f.id ∧ e.place = p ∧
      ∀ d, e.details = some d ↔ ∃ ds, f.details = some ds ∧ Last k d ds := by
  rw [bibInfo, List.foldl_append, List.foldl_cons, fold_keeps hs hpost, analyze_has hf]
  have h0 := insert_last (fun p => (⟨f.id, p, none⟩ : Entry D)) hp (pre.foldl analyze [])
  generalize es.foldl (fun m e => insert e.1 (⟨f.id, e.2, none⟩ : Entry D) m) (pre.foldl analyze []) = m at h0 ⊢
  have last_unique : ∀ {ds : List (List Char × D)} {d d'}, Last k d ds → Last k d' ds → d = d' := by
    intro ds d d' h1 h2
    have a1 := details_last h1 m h0
    have a2 := details_last h2 m h0
    rw [a1] at a2
    simpa using a2
  cases hd : f.details with
  | none => exact ⟨_, h0, rfl, rfl, by simp⟩
  | some ds =>
    by_cases hk : ∃ d, (k, d) ∈ ds
    · obtain ⟨d, hk⟩ := hk
      obtain ⟨d, hl⟩ := exists_last hk
      refine ⟨_, details_last hl m h0, rfl, rfl, fun d' => ?_⟩
      simp only [Option.some.injEq]
      constructor
      · rintro rfl; exact ⟨ds, rfl, hl⟩
      · rintro ⟨ds', rfl, h'⟩; exact last_unique hl h'
    · refine ⟨_, (details_none (fun d hd => hk ⟨d, hd⟩) m).trans h0, rfl, rfl, fun d' => ?_⟩
      simp only [Option.some.injEq]
      constructor
      · intro h; cases h
      · rintro ⟨ds', rfl, a, b, rfl, _⟩
        exact (hk ⟨d', by simp⟩).elim

/-- **C95.** A key no file has leads nowhere. -/
theorem undefined_not_found {fs : List (File D)} {k : List Char} (h : ∀ f ∈ fs, ¬ Defines f k) :
    (bibInfo fs).lookup k = none := by
  have key : ∀ (fs : List (File D)) (m : List (List Char × Entry D)), (∀ f ∈ fs, ¬ Defines f k) → m.lookup k = none →
      (fs.foldl analyze m).lookup k = none := by
    intro fs
    induction fs with
    | nil => intro m _ hm; exact hm
    | cons f fs ih =>
      intro m hf hm
      rw [List.foldl_cons]
      refine ih _ (fun g hg => hf g (List.mem_cons_of_mem _ hg)) ?_
      by_cases hh : ∃ es, Has f es
      · obtain ⟨es, hh⟩ := hh
        rw [analyze_has hh]
        have h1 : (es.foldl (fun m e => insert e.1 (⟨f.id, e.2, none⟩ : Entry D) m) m).lookup k = none := by
          rw [insert_none (fun p => (⟨f.id, p, none⟩ : Entry D))]
          · exact hm
          · exact fun v hv => hf f (List.mem_cons_self ..) ⟨es, hh, v, hv⟩
        generalize es.foldl (fun m e => insert e.1 (⟨f.id, e.2, none⟩ : Entry D) m) m = m' at h1
        generalize f.details.getD [] = ds
        clear hm
        induction ds generalizing m' with
        | nil => exact h1
        | cons d ds ih => exact ih _ (by rw [lookup_setDetails, h1]; rfl)
      · rw [analyze_not fun es he => hh ⟨es, he⟩]; exact hm
  exact key fs [] h rfl

/-- **C95.** No key is listed twice. -/
theorem keys_once (fs : List (File D)) : ((bibInfo fs).map (·.1)).Nodup := by
  have key : ∀ (fs : List (File D)) (m : List (List Char × Entry D)), (m.map (·.1)).Nodup → ((fs.foldl analyze m).map (·.1)).Nodup := by
    intro fs
    induction fs with
    | nil => intro m h; exact h
    | cons f fs ih =>
      intro m hm
      rw [List.foldl_cons]
      refine ih _ ?_
      by_cases hh : ∃ es, Has f es
      · obtain ⟨es, hh⟩ := hh
        rw [analyze_has hh]
        have h1 : ∀ (es : List (List Char × Place)) (m : List (List Char × Entry D)), (m.map (·.1)).Nodup →
            ((es.foldl (fun m e => insert e.1 (⟨f.id, e.2, none⟩ : Entry D) m) m).map (·.1)).Nodup := by
          intro es
          induction es with
          | nil => intro m h; exact h
          | cons e es ih =>
            intro m h
            rw [List.foldl_cons]
            refine ih _ ?_
            rw [insert_keys]
            split
            · exact h
            · rename_i hn
              rw [List.nodup_append]
              exact ⟨h, by simp, fun a ha b hb => by simp at hb; rintro rfl; exact hn (hb ▸ ha)⟩
        have h2 : ∀ (ds : List (List Char × D)) (m : List (List Char × Entry D)),
            (ds.foldl (fun m d => setDetails d.1 d.2 m) m).map (·.1) = m.map (·.1) := by
          intro ds
          induction ds with
          | nil => intro m; rfl
          | cons d ds ih => intro m; rw [List.foldl_cons, ih, setDetails_keys]
        rw [h2]
        exact h1 es m hm
      · rw [analyze_not fun es he => hh ⟨es, he⟩]; exact hm
  exact key fs [] List.nodup_nil

/-- The hypotheses of `last_definition` hold for a key that two files have, the first of them twice. -/
example : ∃ (pre post : List (File Nat)) (f : File Nat) (es : List (List Char × Place)),
    Has f es ∧ Last ['k'] ⟨(5, 6), (5, 9)⟩ es ∧ (∀ g ∈ post, ¬ Defines g ['k']) ∧ (∀ g ∈ post, Sound g) ∧
      (∃ g ∈ pre, Defines g ['k']) ∧ post ≠ [] := by
  refine ⟨[⟨0, some "bib".toList, some [(['k'], ⟨(0, 1), (0, 3)⟩)], some [(['k'], 7)]⟩],
    [⟨2, some "txt".toList, some [(['k'], ⟨(0, 1), (0, 3)⟩)], none⟩],
    ⟨1, some "YAML".toList, some [(['k'], ⟨(0, 1), (0, 3)⟩), (['k'], ⟨(5, 6), (5, 9)⟩)], some [(['k'], 8)]⟩, _,
    ⟨⟨_, rfl, .inr (.inl (by decide))⟩, rfl⟩, ⟨[_], [], rfl, by simp⟩, ?_, ?_, ?_, by simp⟩
  · intro g hg
    simp at hg; subst hg
    rintro ⟨es, ⟨⟨ext, h1, h2⟩, _⟩, _⟩
    cases h1
    revert h2
    unfold Bibliography
    decide
  · intro g hg
    simp at hg; subst hg
    intro es ds k d _ h; cases h
  · exact ⟨_, List.mem_singleton.mpr rfl, _, ⟨⟨_, rfl, .inr (.inr (by decide))⟩, rfl⟩, _, List.mem_singleton.mpr rfl⟩

end Tinymist.Bib
