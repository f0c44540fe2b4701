import Verif.Spec.Fonts
/-!
# C123: the font for an entry of the font book; C124: the list of fonts
-/
namespace Tinymist.Fonts
variable {Data Info Font Name : Type} [DecidableEq Name]

theorem search_all (ps : List (Nat × List (Nat × Nat))) : ∀ s : Searcher Data Info Font,
    ps.foldl (fun s p => s.search p.1 p.2) s =
      ⟨s.fonts, s.paths ++ ps.map (·.1), s.db ++ (ps.map (·.2)).flatten⟩ := by
  induction ps with
  | nil => intro s; simp
  | cons p ps ih => intro s; rw [List.foldl_cons, ih]; simp [Searcher.search]

/-- The slot of a font that was found. -/
def slotOf (f : Found Data Info) : Slot Data Font :=
  match f.source with
  | .file p => ⟨.file p f.index, none, some f.source⟩
  | .memory => ⟨.buffer f.data f.index, none, some f.source⟩

theorem filterMap_face (R : Reader Data Info Font Name) (disk : Nat → Option Data) (fs : List (Nat × Nat)) :
    (fs.filterMap fun (path, index) => do
      let data ← disk path
      let info ← R.info data index
      some (info, (⟨.file path index, none, some (.file path)⟩ : Slot Data Font))) =
    (fs.filterMap (faceFont R disk)).map fun f => (f.info, slotOf f) := by
  induction fs with
  | nil => rfl
  | cons x fs ih =>
    obtain ⟨p, i⟩ := x
    rw [List.filterMap_cons, List.filterMap_cons, ih]
    simp only [faceFont]
    cases disk p with
    | none => rfl
    | some d => cases h : R.info d i <;> simp [h, slotOf]

theorem bytesFonts_eq (R : Reader Data Info Font Name) (ds : List Data) :
    bytesFonts R (some .memory) ds = (ds.flatMap (memoryFonts R)).map fun f => (f.info, slotOf f) := by
  unfold bytesFonts
  rw [List.map_flatMap]
  congr 1
  funext d
  unfold memoryFonts
  rw [List.map_filterMap]
  congr 1
  funext i
  cases h : R.info d i <;> simp [slotOf]

theorem resolve_eq (R : Reader Data Info Font Name) (disk : Nat → Option Data) (o : Opts Data) :
    Searcher.new.resolve R disk o =
      some ⟨(available R disk o).map fun f => (f.info, slotOf (Font := Font) f), o.userPaths.map (·.1), []⟩ := by
  unfold Searcher.resolve
  simp only [search_all, Searcher.new, List.nil_append]
  have e : ∀ s : Searcher Data Info Font, s.fonts = [] → s.db = faces o →
      s.paths = o.userPaths.map (·.1) → (s.flush R disk).addMemoryFonts R o.embedded =
        some ⟨(available R disk o).map fun f => (f.info, slotOf f), o.userPaths.map (·.1), []⟩ := by
    intro s h1 h2 h3
    unfold Searcher.flush Searcher.addMemoryFonts
    simp only [List.isEmpty_nil, if_true, h1, h2, h3, List.nil_append, bytesFonts_eq, filterMap_face]
    rw [← List.map_append]
    rfl
  cases h : o.noSystem with
  | true => exact e _ rfl (by simp [faces, h]) rfl
  | false => exact e _ rfl (by simp [faces, h]) rfl

/-! ## The book -/

theorem keys_addTo (l : List (Name × List Nat)) (k : Name) (i : Nat) :
    (addTo l k i).map (·.1) = if k ∈ l.map (·.1) then l.map (·.1) else l.map (·.1) ++ [k] := by
  induction l with
  | nil => rfl
  | cons x l ih =>
    obtain ⟨k', is⟩ := x
    unfold addTo
    by_cases h : k' = k
    · simp [h]
    · rw [if_neg h, List.map_cons, ih]
      by_cases m : k ∈ l.map (·.1)
      · rw [if_pos m, if_pos (by rw [List.map_cons]; exact List.mem_cons_of_mem _ m)]; rfl
      · rw [if_neg m, if_neg (by
          rw [List.map_cons]; intro q
          rcases List.mem_cons.1 q with q | q
          · exact h q.symm
          · exact m q)]
        rfl

theorem mem_addTo (l : List (Name × List Nat)) (nd : (l.map (·.1)).Nodup) (k : Name) (i : Nat)
    (x : Name × List Nat) : x ∈ addTo l k i ↔ (x ∈ l ∧ x.1 ≠ k) ∨
      (x.1 = k ∧ ((∃ is, (k, is) ∈ l ∧ x.2 = is ++ [i]) ∨ (k ∉ l.map (·.1) ∧ x.2 = [i]))) := by
  induction l with
  | nil =>
    obtain ⟨a, b⟩ := x
    simp [addTo]
  | cons y l ih =>
    obtain ⟨k', is⟩ := y
    rw [List.map_cons, List.nodup_cons] at nd
    unfold addTo
    by_cases h : k' = k
    · subst h
      rw [if_pos rfl]
      constructor
      · intro m
        rcases List.mem_cons.1 m with e | m
        · rw [e]; exact .inr ⟨rfl, .inl ⟨is, List.mem_cons_self, rfl⟩⟩
        · exact .inl ⟨List.mem_cons_of_mem _ m, fun e => nd.1 (e ▸ List.mem_map_of_mem (f := (·.1)) m)⟩
      · rintro (⟨m, ne⟩ | ⟨e, ⟨js, m, e'⟩ | ⟨m, _⟩⟩)
        · rcases List.mem_cons.1 m with e | m
          · exact absurd (by rw [e]) ne
          · exact List.mem_cons_of_mem _ m
        · rcases List.mem_cons.1 m with e2 | m
          · cases e2
            rw [show x = (k', is ++ [i]) from Prod.ext e e']
            exact List.mem_cons_self
          · exact absurd (List.mem_map_of_mem m) nd.1
        · exact absurd (by rw [List.map_cons]; exact List.mem_cons_self) m
    · rw [if_neg h, List.mem_cons, ih nd.2]
      constructor
      · rintro (e | ⟨m, ne⟩ | ⟨e, ⟨js, m, e'⟩ | ⟨m, e'⟩⟩)
        · rw [e]; exact .inl ⟨List.mem_cons_self, h⟩
        · exact .inl ⟨List.mem_cons_of_mem _ m, ne⟩
        · exact .inr ⟨e, .inl ⟨js, List.mem_cons_of_mem _ m, e'⟩⟩
        · refine .inr ⟨e, .inr ⟨?_, e'⟩⟩
          rw [List.map_cons]
          intro q
          rcases List.mem_cons.1 q with q | q
          · exact h q.symm
          · exact m q
      · rintro (⟨m, ne⟩ | ⟨e, ⟨js, m, e'⟩ | ⟨m, e'⟩⟩)
        · rcases List.mem_cons.1 m with e | m
          · exact .inl e
          · exact .inr (.inl ⟨m, ne⟩)
        · rcases List.mem_cons.1 m with e2 | m
          · cases e2; exact absurd rfl h
          · exact .inr (.inr ⟨e, .inl ⟨js, m, e'⟩⟩)
        · refine .inr (.inr ⟨e, .inr ⟨fun q => m ?_, e'⟩⟩)
          rw [List.map_cons]
          exact List.mem_cons_of_mem _ q

/-- The families of a book are those of its infos. -/
structure Sorted (R : Reader Data Info Font Name) (b : Book Info Name) : Prop where
  keys : (b.families.map (·.1)).Nodup
  ids : ∀ x ∈ b.families, x.2 ≠ [] ∧ x.2.Nodup ∧
    ∀ i : Nat, i ∈ x.2 ↔ ∃ info, b.infos[i]? = some info ∧ R.lower (R.family info) = x.1
  all : ∀ (i : Nat) info, b.infos[i]? = some info → ∃ ids, (R.lower (R.family info), ids) ∈ b.families

theorem sorted_push (R : Reader Data Info Font Name) (b : Book Info Name) (h : Sorted R b) (info : Info) :
    Sorted R (b.push R info) := by
  obtain ⟨h1, h2, h3⟩ := h
  have at_ : ∀ (i : Nat) x, (b.infos ++ [info])[i]? = some x ↔ b.infos[i]? = some x ∨ (i = b.infos.length ∧ x = info) := by
    intro i x
    by_cases lt : i < b.infos.length
    · rw [List.getElem?_append_left lt]
      exact ⟨.inl, fun q => by
        rcases q with q | q
        · exact q
        · omega⟩
    · rw [List.getElem?_append_right (by omega), List.getElem?_eq_none (l := b.infos) (by omega)]
      by_cases e : i = b.infos.length
      · rw [e, Nat.sub_self]
        simp [eq_comm]
      · rw [List.getElem?_eq_none (by simp; omega)]
        simp [e]
  have bound : ∀ x ∈ b.families, ∀ i ∈ x.2, i < b.infos.length := by
    intro x m i mi
    obtain ⟨_, e, _⟩ := ((h2 x m).2.2 i).1 mi
    exact (List.getElem?_eq_some_iff.1 e).1
  refine ⟨?_, ?_, ?_⟩
  · show ((addTo b.families _ _).map (·.1)).Nodup
    rw [keys_addTo]
    split
    · exact h1
    · rename_i nm
      rw [List.nodup_append]
      refine ⟨h1, by simp, fun a ha c hc e => nm ?_⟩
      rw [List.mem_singleton.1 hc] at e
      exact e ▸ ha
  · intro x m
    rcases (mem_addTo b.families h1 _ _ x).1 m with ⟨m, ne⟩ | ⟨e, ⟨js, mj, e'⟩ | ⟨nm, e'⟩⟩
    · obtain ⟨a, nd, c⟩ := h2 x m
      refine ⟨a, nd, fun i => (c i).trans ⟨fun ⟨y, hy, hk⟩ => ⟨y, (at_ i y).2 (.inl hy), hk⟩, ?_⟩⟩
      rintro ⟨y, hy, hk⟩
      rcases (at_ i y).1 hy with hy | ⟨_, rfl⟩
      · exact ⟨y, hy, hk⟩
      · exact absurd hk.symm ne
    · obtain ⟨a, nd, c⟩ := h2 _ mj
      rw [e']
      refine ⟨by simp, ?_, ?_⟩
      · rw [List.nodup_append]
        refine ⟨nd, by simp, fun a ha c hc e => ?_⟩
        rw [List.mem_singleton.1 hc] at e
        have := bound _ mj a ha
        omega
      · intro i
        rw [List.mem_append, c i, List.mem_singleton]
        constructor
        · rintro (⟨y, hy, hk⟩ | rfl)
          · exact ⟨y, (at_ i y).2 (.inl hy), hk.trans e.symm⟩
          · exact ⟨info, (at_ _ _).2 (.inr ⟨rfl, rfl⟩), e.symm⟩
        · rintro ⟨y, hy, hk⟩
          rcases (at_ i y).1 hy with hy | ⟨q, _⟩
          · exact .inl ⟨y, hy, hk.trans e⟩
          · exact .inr q
    · rw [e']
      refine ⟨by simp, by simp, ?_⟩
      intro i
      rw [List.mem_singleton]
      constructor
      · rintro rfl
        exact ⟨info, (at_ _ _).2 (.inr ⟨rfl, rfl⟩), e.symm⟩
      · rintro ⟨y, hy, hk⟩
        rcases (at_ i y).1 hy with hy | ⟨q, _⟩
        · obtain ⟨ids, mi⟩ := h3 i y hy
          exact absurd (by rw [← e, ← hk]; exact List.mem_map_of_mem mi) nm
        · exact q
  · intro i y hy
    rcases (at_ i y).1 hy with hy | ⟨_, rfl⟩
    · obtain ⟨ids, mi⟩ := h3 i y hy
      by_cases e : R.lower (R.family y) = R.lower (R.family info)
      · exact ⟨ids ++ [b.infos.length], (mem_addTo b.families h1 _ _ _).2 (.inr ⟨e, .inl ⟨ids, e ▸ mi, rfl⟩⟩)⟩
      · exact ⟨ids, (mem_addTo b.families h1 _ _ _).2 (.inl ⟨mi, e⟩)⟩
    · by_cases e : R.lower (R.family y) ∈ b.families.map (·.1)
      · obtain ⟨x, mx, ex⟩ := List.mem_map.1 e
        exact ⟨x.2 ++ [b.infos.length], (mem_addTo b.families h1 _ _ _).2
          (.inr ⟨rfl, .inl ⟨x.2, by rw [← ex]; exact mx, rfl⟩⟩)⟩
      · exact ⟨[b.infos.length], (mem_addTo b.families h1 _ _ _).2 (.inr ⟨rfl, .inr ⟨e, rfl⟩⟩)⟩

theorem book_of (R : Reader Data Info Font Name) (infos : List Info) :
    (Book.of R infos).infos = infos ∧ Sorted R (Book.of R infos) := by
  have : ∀ (infos : List Info) (b : Book Info Name), Sorted R b →
      (infos.foldl (Book.push R) b).infos = b.infos ++ infos ∧ Sorted R (infos.foldl (Book.push R) b) := by
    intro infos
    induction infos with
    | nil => exact fun b h => ⟨(List.append_nil _).symm, h⟩
    | cons x xs ih =>
      intro b h
      obtain ⟨a, c⟩ := ih _ (sorted_push R b h x)
      exact ⟨a.trans (by simp [Book.push]), c⟩
  exact this infos ⟨[], []⟩ ⟨by simp, (fun x m => by cases m), (fun i info h => by cases i <;> cases h)⟩

/-! ## C123 -/

/-- A slot that was used for nothing else than the font `f`. -/
def Of (R : Reader Data Info Font Name) (f : Found Data Info) (s : Slot Data Font) : Prop :=
  s = slotOf f ∨ s = ⟨.used, some (R.font f.data f.index), some f.source⟩

theorem of_step (R : Reader Data Info Font Name) (disk : Nat → Option Data) (f : Found Data Info)
    (s : Slot Data Font) (h : Of R f s) (stable : ∀ p, f.source = .file p → disk p = some f.data) :
    ∃ s', s.getOrInit R disk = some (s', R.font f.data f.index) ∧ Of R f s' := by
  rcases h with h | h
  · obtain ⟨src, data, index, info⟩ := f
    cases src with
    | file p =>
      refine ⟨⟨.used, some (R.font data index), some (.file p)⟩, ?_, .inr rfl⟩
      rw [h]
      simp [slotOf, Slot.getOrInit, Loader.load, stable p rfl]
    | memory =>
      refine ⟨⟨.used, some (R.font data index), some .memory⟩, ?_, .inr rfl⟩
      rw [h]
      simp [slotOf, Slot.getOrInit, Loader.load]
  · refine ⟨s, ?_, .inr h⟩
    rw [h]
    simp [Slot.getOrInit]

/-- C123. With any paths of the user, fonts of the system and embedded fonts, the search does not fail; the
book lists all fonts that can be read, those of the user first, then those of the system and the embedded
ones; and in any row of requests each request for a font of the book gets the font its entry was read from,
while the files of fonts stay as they are. -/
theorem font_of_entry_partial (R : Reader Data Info Font Name) (disk : Nat → Option Data) (o : Opts Data) :
    ∃ s, (Searcher.new : Searcher Data Info Font).resolve R disk o = some s ∧
      (s.build R).book.infos = (available R disk o).map (·.info) ∧
      (s.build R).paths = o.userPaths.map (·.1) ∧
      ∀ reqs : List ((Nat → Option Data) × Nat), (∀ r ∈ reqs, r.2 < (available R disk o).length ∧
        ∀ p ∈ files o, r.1 p = disk p) →
        ∃ r fonts, (s.build R).run R reqs = some (r, fonts) ∧
          fonts.map some = reqs.map fun q => ((available R disk o)[q.2]?).map fun f => R.font f.data f.index := by
  refine ⟨_, resolve_eq R disk o, ?_, rfl, ?_⟩
  · show (Book.of R _).infos = _
    rw [(book_of R _).1, List.map_map]
    rfl
  · have src : ∀ f ∈ available R disk o, ∀ p, f.source = .file p → p ∈ files o ∧ disk p = some f.data := by
      intro f m p e
      rcases List.mem_append.1 m with m | m
      · obtain ⟨face, mf, ef⟩ := List.mem_filterMap.1 m
        unfold faceFont at ef
        cases hd : disk face.1 with
        | none => rw [hd] at ef; cases ef
        | some d =>
          rw [hd] at ef
          cases hi : R.info d face.2 with
          | none => simp [hi] at ef
          | some info =>
            simp only [Option.bind_eq_bind, Option.bind_some, hi, Option.some.injEq] at ef
            subst ef
            cases e
            exact ⟨List.mem_map_of_mem mf, hd⟩
      · obtain ⟨d, _, mf⟩ := List.mem_flatMap.1 m
        obtain ⟨i, _, ei⟩ := List.mem_filterMap.1 mf
        cases hi : R.info d i with
        | none => rw [hi] at ei; cases ei
        | some info => rw [hi] at ei; cases ei; cases e
    have gen : ∀ (reqs : List ((Nat → Option Data) × Nat)) (r : Resolver Data Info Font Name),
        (r.slots.length = (available R disk o).length ∧
          ∀ (i : Nat) f sl, (available R disk o)[i]? = some f → r.slots[i]? = some sl → Of R f sl) →
        (∀ r ∈ reqs, r.2 < (available R disk o).length ∧ ∀ p ∈ files o, r.1 p = disk p) →
        ∃ r' fonts, r.run R reqs = some (r', fonts) ∧
          fonts.map some = reqs.map fun q => ((available R disk o)[q.2]?).map fun f => R.font f.data f.index := by
      intro reqs
      induction reqs with
      | nil => exact fun r _ _ => ⟨r, [], rfl, rfl⟩
      | cons q reqs ih =>
        intro r ⟨len, inv⟩ ok
        obtain ⟨lt, same⟩ := ok q List.mem_cons_self
        have hf : (available R disk o)[q.2]? = some (available R disk o)[q.2] := List.getElem?_eq_getElem lt
        have hs : r.slots[q.2]? = some (r.slots[q.2]'(by omega)) := List.getElem?_eq_getElem (by omega)
        generalize (available R disk o)[q.2] = f at hf
        generalize (r.slots[q.2]'(by omega)) = sl at hs
        obtain ⟨sl', e, ok'⟩ := of_step R q.1 f sl (inv _ f sl hf hs) fun p ep => by
          obtain ⟨a, b⟩ := src f (List.mem_of_getElem? hf) p ep
          rw [same p a, b]
        obtain ⟨r', fonts, e2, e3⟩ := ih { r with slots := r.slots.set q.2 sl' } ⟨by simp [len], by
          intro i g t hg ht
          by_cases ei : q.2 = i
          · subst ei
            rw [hf] at hg
            cases hg
            simp only [List.getElem?_set_self (show q.2 < r.slots.length by omega)] at ht
            cases ht
            exact ok'
          · simp only [List.getElem?_set_ne ei] at ht
            exact inv i g t hg ht⟩ (fun x m => ok x (List.mem_cons_of_mem _ m))
        refine ⟨r', R.font f.data f.index :: fonts, ?_, ?_⟩
        · unfold Resolver.run Resolver.font
          rw [hs]
          simp only [e, e2]
        · rw [List.map_cons, List.map_cons, e3, hf]
          rfl
    intro reqs ok
    refine gen reqs _ ⟨by simp [Searcher.build], ?_⟩ ok
    intro i f sl hf hs
    simp only [Searcher.build, List.map_map, List.getElem?_map, hf, Option.map_some] at hs
    exact .inl (Option.some.inj hs).symm

/-- Whatever happens to the files, a font that was asked for once stays the same, and asking for fonts of the
book never fails. -/
theorem fonts_stay (R : Reader Data Info Font Name) (disk : Nat → Option Data) (o : Opts Data)
    (s : Searcher Data Info Font) (hs : Searcher.new.resolve R disk o = some s)
    (reqs : List ((Nat → Option Data) × Nat)) (ok : ∀ r ∈ reqs, r.2 < (s.build R).book.infos.length) :
    ∃ r fonts, (s.build R).run R reqs = some (r, fonts) ∧ fonts.length = reqs.length ∧
      ∀ (a b : Nat) q q', reqs[a]? = some q → reqs[b]? = some q' → q.2 = q'.2 → fonts[a]? = fonts[b]? := by
  have bl : (s.build R).book.infos.length = (s.build R).slots.length := by
    show (Book.of R _).infos.length = _
    rw [(book_of R _).1]
    simp [Searcher.build]
  have fresh : ∀ sl ∈ (s.build R).slots, (sl.loader = .used → sl.cell ≠ none) := by
    intro sl m
    rw [resolve_eq R disk o] at hs
    cases hs
    simp only [Searcher.build, List.map_map, List.mem_map] at m
    obtain ⟨f, _, e⟩ := m
    intro u
    rw [← e] at u
    obtain ⟨src, d, i, info⟩ := f
    cases src <;> cases u
  have gen : ∀ (reqs : List ((Nat → Option Data) × Nat)) (r : Resolver Data Info Font Name),
      (∀ sl ∈ r.slots, (sl.loader = .used → sl.cell ≠ none)) → (∀ q ∈ reqs, q.2 < r.slots.length) →
      ∃ r' fonts, r.run R reqs = some (r', fonts) ∧ fonts.length = reqs.length ∧
        (∀ (a : Nat) q sl f, reqs[a]? = some q → r.slots[q.2]? = some sl → sl.cell = some f → fonts[a]? = some f) ∧
        ∀ (a b : Nat) q q', reqs[a]? = some q → reqs[b]? = some q' → q.2 = q'.2 → fonts[a]? = fonts[b]? := by
    intro reqs
    induction reqs with
    | nil =>
      exact fun r _ _ => ⟨r, [], rfl, rfl, (fun a q sl f h => by cases a <;> cases h),
        fun a b q q' h => by cases a <;> cases h⟩
    | cons q reqs ih =>
      intro r inv ok
      have lt := ok q List.mem_cons_self
      have hsl : r.slots[q.2]? = some r.slots[q.2] := List.getElem?_eq_getElem lt
      generalize r.slots[q.2] = sl at hsl
      have ⟨sl', f, e, c⟩ : ∃ sl' f, sl.getOrInit R q.1 = some (sl', f) ∧ sl'.cell = some f ∧
          (∀ g, sl.cell = some g → g = f) := by
        unfold Slot.getOrInit
        cases hc : sl.cell with
        | some f => exact ⟨sl, f, rfl, hc, fun g e => by cases e; rfl⟩
        | none =>
          dsimp only
          have : sl.loader.load R q.1 ≠ none := by
            cases hl : sl.loader with
            | buffer d i => simp [Loader.load]
            | file p i => unfold Loader.load; cases h : q.1 p <;> simp [h]
            | used => exact absurd hc (inv sl (List.mem_of_getElem? hsl) hl)
          obtain ⟨f, hf⟩ := Option.ne_none_iff_exists'.1 this
          rw [hf]
          exact ⟨_, f, rfl, rfl, nofun⟩
      obtain ⟨r', fonts, e2, len, kept, eq⟩ := ih { r with slots := r.slots.set q.2 sl' } (by
          intro t m u
          rcases List.mem_or_eq_of_mem_set m with m | et
          · exact inv t m u
          · rw [et, c.1]; exact nofun)
        (fun x m => by simp only [List.length_set]; exact ok x (List.mem_cons_of_mem _ m))
      have self : ({ r with slots := r.slots.set q.2 sl' } : Resolver Data Info Font Name).slots[q.2]? = some sl' :=
        List.getElem?_set_self lt
      have tail : ∀ (a : Nat) x, reqs[a]? = some x → x.2 = q.2 → fonts[a]? = some f :=
        fun a x hx ex => kept a x sl' f hx (ex ▸ self) c.1
      refine ⟨r', f :: fonts, ?_, by simp [len], ?_, ?_⟩
      · unfold Resolver.run Resolver.font
        rw [hsl]
        simp only [e, e2]
      · intro a x t g hx ht hg
        cases a with
        | zero =>
          cases hx
          rw [hsl] at ht
          cases ht
          rw [c.2 g hg]; rfl
        | succ a =>
          by_cases ex : q.2 = x.2
          · rw [← ex, hsl] at ht
            cases ht
            rw [c.2 g hg]
            exact tail a x hx ex.symm
          · exact kept a x t g hx ((List.getElem?_set_ne ex).trans ht) hg
      · intro a b x y hx hy exy
        cases a with
        | zero =>
          cases hx
          cases b with
          | zero => rfl
          | succ b => exact (tail b y hy exy.symm).symm
        | succ a =>
          cases b with
          | zero => cases hy; exact tail a x hx exy
          | succ b => exact eq a b x y hx hy exy
  obtain ⟨r, fonts, e, len, _, eq⟩ := gen reqs (s.build R) fresh (fun q m => bl ▸ ok q m)
  exact ⟨r, fonts, e, len, eq⟩

/-- Fonts that are their content and index; the family of a font is its content modulo 100. -/
def toy : Reader Nat (Nat × Nat) (Nat × Nat) Nat where
  count _ := some 2
  info d i := some (d, i)
  font d i := some (d, i)
  family x := x.1 % 100
  lower n := n

def toyDisk : Nat → Option Nat := fun p => if p < 5 then some (p * 10) else none

def toyOpts : Opts Nat := ⟨[(1, [(1, 0), (1, 1)])], [(2, 0), (7, 0)], false, [30]⟩

theorem example_available : (available toy toyDisk toyOpts).map (·.info) =
    [(10, 0), (10, 1), (20, 0), (30, 0), (30, 1)] := by decide

/-- C123 fails when a file is replaced after the search: the entry describes the old font. -/
theorem file_replaced :
    ∃ s, (Searcher.new : Searcher Nat (Nat × Nat) (Nat × Nat)).resolve toy toyDisk toyOpts = some s ∧
      (s.build toy).book.infos[0]? = some (10, 0) ∧
      ((s.build toy).font toy (fun _ => some 99) 0).map (·.2) = some (some (99, 0)) := by
  refine ⟨_, resolve_eq _ _ _, ?_, ?_⟩ <;> decide

/-- A request by a description fails if there are no fonts. -/
theorem no_fonts_panic (fallback : List (Nat × Nat) → Nat × Nat → Option Nat) (h : ∀ i, fallback [] i = none) :
    ∃ s, (Searcher.new : Searcher Nat (Nat × Nat) (Nat × Nat)).resolve toy toyDisk ⟨[], [], true, []⟩ = some s ∧
      ∀ i, (s.build toy).getByInfo toy toyDisk fallback i = none := by
  refine ⟨_, resolve_eq _ _ _, fun i => ?_⟩
  unfold Resolver.getByInfo
  show (match fallback [] i with | none => none | some j => _) = none
  rw [h]

/-! ## C124 -/

theorem internal_facts (sources : List Source) (nd : sources.Nodup) (s : Source) :
    sources <+: (internal sources s).1 ∧ (internal sources s).1.Nodup ∧
      (internal sources s).1[(internal sources s).2]? = some s := by
  unfold internal
  by_cases m : s ∈ sources
  · rw [if_pos m]
    refine ⟨List.prefix_refl _, nd, ?_⟩
    rw [List.getElem?_eq_some_iff]
    exact ⟨List.idxOf_lt_length_of_mem m, List.getElem_idxOf _⟩
  · rw [if_neg m]
    refine ⟨List.prefix_append .., ?_, ?_⟩
    · rw [List.nodup_append]
      refine ⟨nd, by simp, fun a ha c hc e => m ?_⟩
      rw [List.mem_singleton.1 hc] at e
      exact e ▸ ha
    · rw [List.getElem?_append_right (Nat.le_refl _), Nat.sub_self]; rfl

theorem count_one {l : List Nat} (nd : l.Nodup) {a : Nat} (m : a ∈ l) : l.count a = 1 := by
  induction l with
  | nil => cases m
  | cons x l ih =>
    rw [List.nodup_cons] at nd
    by_cases e : x = a
    · subst e
      rw [List.count_cons_self, List.count_eq_zero_of_not_mem nd.1]
    · rw [List.count_cons_of_ne e]
      rcases List.mem_cons.1 m with q | q
      · exact absurd q.symm e
      · exact ih nd.2 q

/-- An item of the list says what the book and the slot of its index say. -/
def Right (R : Reader Data Info Font Name) (r : Resolver Data Info Font Name) (sources : List Source)
    (x : Item Name) : Prop :=
  (∃ info, r.book.infos[x.index]? = some info ∧ x.name = R.family info) ∧
    ∃ sl, r.slots[x.index]? = some sl ∧ (x.source = none ↔ sl.source = none) ∧
      ∀ k, x.source = some k → sources[k]? = sl.source

theorem getElem?_prefix {α : Type} {l l' : List α} (p : l <+: l') {i : Nat} {a : α} (h : l[i]? = some a) :
    l'[i]? = some a := by
  obtain ⟨t, rfl⟩ := p
  rw [List.getElem?_append_left (List.getElem?_eq_some_iff.1 h).1, h]

theorem right_mono {R : Reader Data Info Font Name} {r : Resolver Data Info Font Name} {l l' : List Source}
    (p : l <+: l') {x : Item Name} (h : Right R r l x) : Right R r l' x := by
  obtain ⟨a, sl, b, c, d⟩ := h
  refine ⟨a, sl, b, c, fun k e => ?_⟩
  have := d k e
  cases hs : sl.source with
  | none => rw [c.2 hs] at e; cases e
  | some s => rw [hs] at this; exact getElem?_prefix p this

theorem listFonts_facts (R : Reader Data Info Font Name) (r : Resolver Data Info Font Name)
    (len : r.book.infos.length = r.slots.length) (ids : List Nat) :
    ∀ sources : List Source, sources.Nodup → (∀ i ∈ ids, i < r.slots.length) →
      ∃ sources' items, listFonts R r ids sources = some (sources', items) ∧ sources <+: sources' ∧
        sources'.Nodup ∧ items.map (·.index) = ids ∧ ∀ x ∈ items, Right R r sources' x := by
  induction ids with
  | nil => exact fun sources nd _ => ⟨sources, [], rfl, List.prefix_refl _, nd, rfl, fun x m => by cases m⟩
  | cons i ids ih =>
    intro sources nd ok
    have lt := ok i List.mem_cons_self
    have hs : r.slots[i]? = some r.slots[i] := List.getElem?_eq_getElem lt
    have hb : r.book.infos[i]? = some (r.book.infos[i]'(by omega)) := List.getElem?_eq_getElem (by omega)
    generalize r.slots[i] = sl at hs
    generalize (r.book.infos[i]'(by omega)) = info at hb
    unfold listFonts
    rw [hs]
    dsimp only
    cases hsrc : sl.source with
    | none =>
      obtain ⟨s', items, e, p, nd', ei, rt⟩ := ih sources nd fun i m => ok i (List.mem_cons_of_mem _ m)
      simp only [e, hb]
      refine ⟨s', _, rfl, p, nd', by rw [List.map_cons, ei], ?_⟩
      intro x m
      rcases List.mem_cons.1 m with e' | m
      · rw [e']
        exact ⟨⟨info, hb, rfl⟩, sl, hs, ⟨fun _ => hsrc, fun _ => rfl⟩, nofun⟩
      · exact rt x m
    | some s =>
      obtain ⟨p0, nd0, at0⟩ := internal_facts sources nd s
      obtain ⟨s', items, e, p, nd', ei, rt⟩ := ih _ nd0 fun i m => ok i (List.mem_cons_of_mem _ m)
      simp only [e, hb]
      refine ⟨s', _, rfl, p0.trans p, nd', by rw [List.map_cons, ei], ?_⟩
      intro x m
      rcases List.mem_cons.1 m with e' | m
      · rw [e']
        refine ⟨⟨info, hb, rfl⟩, sl, hs, ⟨nofun, fun q => by rw [hsrc] at q; cases q⟩, ?_⟩
        intro k ek
        cases ek
        rw [hsrc]
        exact getElem?_prefix p at0
      · exact rt x m

theorem listFamilies_facts (R : Reader Data Info Font Name) (r : Resolver Data Info Font Name)
    (len : r.book.infos.length = r.slots.length) (so : Sorted R r.book) (fs : List (Name × List Nat)) :
    ∀ sources : List Source, sources.Nodup → (∀ f ∈ fs, f ∈ r.book.families) →
      ∃ sources' fams, listFamilies R r fs sources = some (sources', fams) ∧ sources <+: sources' ∧
        sources'.Nodup ∧ fams.map (fun f => (R.lower f.1, f.2.map (·.index))) = fs ∧
        ∀ f ∈ fams, ∀ x ∈ f.2, Right R r sources' x := by
  induction fs with
  | nil => exact fun sources nd _ => ⟨sources, [], rfl, List.prefix_refl _, nd, rfl, fun x m => by cases m⟩
  | cons f fs ih =>
    intro sources nd ok
    have mf := ok f List.mem_cons_self
    obtain ⟨ne, ndi, chr⟩ := so.ids f mf
    have ⟨name, hn, hl⟩ : ∃ name, familyName R r.book f.2 = some name ∧ R.lower name = f.1 := by
      cases hi : f.2 with
      | nil => exact absurd hi ne
      | cons i is =>
        obtain ⟨info, a, b⟩ := (chr i).1 (by rw [hi]; exact List.mem_cons_self)
        exact ⟨R.family info, by simp [familyName, a], b⟩
    have sel : selectFamily r.book (R.lower name) = f.2 := by
      unfold selectFamily
      rw [hl]
      have : r.book.families.find? (fun g => g.1 = f.1) = some f := by
        have keys := so.keys
        generalize r.book.families = l at keys mf
        induction l with
        | nil => cases mf
        | cons g l ih' =>
          rw [List.map_cons, List.nodup_cons] at keys
          rcases List.mem_cons.1 mf with e | m
          · subst e; rw [List.find?_cons_of_pos (by simp)]
          · rw [List.find?_cons_of_neg]
            · exact ih' keys.2 m
            · simp only [decide_eq_true_eq]
              intro e
              exact keys.1 (e ▸ List.mem_map_of_mem m)
      rw [this]
    have bound : ∀ i ∈ f.2, i < r.slots.length := by
      intro i m
      obtain ⟨info, a, _⟩ := (chr i).1 m
      rw [← len]
      exact (List.getElem?_eq_some_iff.1 a).1
    obtain ⟨s1, items, e1, p1, nd1, ei, rt1⟩ := listFonts_facts R r len f.2 sources nd bound
    obtain ⟨s2, fams, e2, p2, nd2, ef, rt2⟩ := ih s1 nd1 fun g m => ok g (List.mem_cons_of_mem _ m)
    refine ⟨s2, (name, items) :: fams, ?_, p1.trans p2, nd2, ?_, ?_⟩
    · unfold listFamilies
      simp only [hn, sel, e1, e2]
    · rw [List.map_cons, ef, hl, ei]
    · intro g m x mx
      rcases List.mem_cons.1 m with e | m
      · subst e
        exact right_mono p2 (rt1 x mx)
      · exact rt2 g m x mx

/-- C124. The list of fonts does not fail; every font of the book is in it exactly once, in the family of its
name, with its own name and with the number of the place it was found in; fonts are in the same family exactly
if their names differ in case only; no place is listed twice.
Missing: that the index is the one in the place the font was found in. -/
theorem fonts_listed_partial (R : Reader Data Info Font Name) (disk : Nat → Option Data) (o : Opts Data)
    (s : Searcher Data Info Font) (hs : Searcher.new.resolve R disk o = some s) :
    ∃ sources fams, fontResources R (s.build R) = some (sources, fams) ∧ sources.Nodup ∧
      (fams.map fun f => R.lower f.1).Nodup ∧
      (∀ (i : Nat) f, (available R disk o)[i]? = some f →
        ((fams.flatMap (·.2)).map (·.index)).count i = 1 ∧
        ∃ fam ∈ fams, ∃ x ∈ fam.2, x.index = i ∧ x.name = R.family f.info ∧
          R.lower fam.1 = R.lower x.name ∧ ∃ k, x.source = some k ∧ sources[k]? = some f.source) ∧
      ∀ fam ∈ fams, ∀ x ∈ fam.2, x.index < (available R disk o).length := by
  rw [resolve_eq R disk o] at hs
  cases hs
  let s : Searcher Data Info Font :=
    ⟨(available R disk o).map fun f => (f.info, slotOf f), o.userPaths.map (·.1), []⟩
  obtain ⟨b1, so⟩ := book_of R (s.fonts.map (·.1))
  have binf : (s.build R).book.infos = (available R disk o).map (·.info) := by
    show (Book.of R _).infos = _
    rw [b1]; simp [s]
  have bsl : (s.build R).slots = (available R disk o).map slotOf := by
    simp [Searcher.build, s]
  have len : (s.build R).book.infos.length = (s.build R).slots.length := by rw [binf, bsl]; simp
  obtain ⟨sources, fams, e, _, nd, ef, rt⟩ :=
    listFamilies_facts R (s.build R) len so (s.build R).book.families [] List.nodup_nil fun _ m => m
  have keysEq : fams.map (fun f => R.lower f.1) = (s.build R).book.families.map (·.1) := by
    rw [← ef, List.map_map]; rfl
  have so : Sorted R (s.build R).book := so
  refine ⟨sources, fams, e, nd, ?_, ?_, ?_⟩
  · rw [keysEq]; exact so.keys
  · intro i f hf
    have hi : (s.build R).book.infos[i]? = some f.info := by rw [binf, List.getElem?_map, hf]; rfl
    have hsl : (s.build R).slots[i]? = some (slotOf f) := by rw [bsl, List.getElem?_map, hf]; rfl
    obtain ⟨ids, mf⟩ := so.all i f.info hi
    have mi : i ∈ ids := ((so.ids _ mf).2.2 i).2 ⟨f.info, hi, rfl⟩
    constructor
    · have : (fams.flatMap (·.2)).map (·.index) = (s.build R).book.families.flatMap (·.2) := by
        rw [← ef, List.map_flatMap, List.flatMap_map]
      rw [this]
      have cnt : ∀ l : List (Name × List Nat), (l.map (·.1)).Nodup → (∀ x ∈ l, x ∈ (s.build R).book.families) →
          (l.flatMap (·.2)).count i = if R.lower (R.family f.info) ∈ l.map (·.1) then 1 else 0 := by
        intro l
        induction l with
        | nil => exact fun _ _ => rfl
        | cons x l ih =>
          intro ndk sub
          rw [List.map_cons, List.nodup_cons] at ndk
          have hx := so.ids x (sub x List.mem_cons_self)
          rw [List.flatMap_cons, List.count_append, ih ndk.2 fun y m => sub y (List.mem_cons_of_mem _ m)]
          by_cases ek : R.lower (R.family f.info) = x.1
          · have m1 : i ∈ x.2 := (hx.2.2 i).2 ⟨f.info, hi, ek⟩
            rw [count_one hx.2.1 m1, if_neg (by rw [ek]; exact ndk.1),
              if_pos (by rw [List.map_cons, ek]; exact List.mem_cons_self)]
          · have m1 : i ∉ x.2 := by
              intro m
              obtain ⟨info, a, b⟩ := (hx.2.2 i).1 m
              rw [hi] at a
              cases a
              exact ek b
            rw [List.count_eq_zero_of_not_mem m1, Nat.zero_add]
            by_cases m2 : R.lower (R.family f.info) ∈ l.map (·.1)
            · rw [if_pos m2, if_pos (by rw [List.map_cons]; exact List.mem_cons_of_mem _ m2)]
            · rw [if_neg m2, if_neg (by
                rw [List.map_cons]; intro q
                rcases List.mem_cons.1 q with q | q
                · exact ek q
                · exact m2 q)]
      rw [cnt _ so.keys fun _ m => m, if_pos (List.mem_map_of_mem mf)]
    · rw [← ef] at mf
      obtain ⟨fam, mfam, efam⟩ := List.mem_map.1 mf
      have mi' : i ∈ fam.2.map (·.index) := by
        have := congrArg Prod.snd efam
        simp only at this
        rw [this]; exact mi
      obtain ⟨x, mx, ex⟩ := List.mem_map.1 mi'
      obtain ⟨⟨info, a, b⟩, sl, c, d, g⟩ := rt fam mfam x mx
      rw [ex, hi] at a
      cases a
      rw [ex, hsl] at c
      cases c
      have ss : (slotOf f : Slot Data Font).source = some f.source := by
        unfold slotOf; cases f.source <;> rfl
      refine ⟨fam, mfam, x, mx, ex, b, ?_, ?_⟩
      · rw [b]; exact congrArg Prod.fst efam
      · cases hk : x.source with
        | none => rw [d.1 hk] at ss; cases ss
        | some k => exact ⟨k, rfl, (g k hk).trans ss⟩
  · intro fam mfam x mx
    obtain ⟨⟨info, a, _⟩, _⟩ := rt fam mfam x mx
    rw [binf] at a
    have := (List.getElem?_eq_some_iff.1 a).1
    simpa using this

theorem example_listed :
    ∃ s, (Searcher.new : Searcher Nat (Nat × Nat) (Nat × Nat)).resolve toy toyDisk toyOpts = some s ∧
      fontResources toy (s.build toy) = some ([.file 1, .file 2, .memory],
        [(10, [⟨10, some 0, 0⟩, ⟨10, some 0, 1⟩]), (20, [⟨20, some 1, 2⟩]), (30, [⟨30, some 2, 3⟩, ⟨30, some 2, 4⟩])]) := by
  refine ⟨_, resolve_eq _ _ _, ?_⟩
  decide

/-- C124 fails for the index, which is documented as the index of the font in its source: the only font of
the second file has index 2. -/
theorem index_not_in_source :
    ∃ s, (Searcher.new : Searcher Nat (Nat × Nat) (Nat × Nat)).resolve toy toyDisk toyOpts = some s ∧
      ∃ sources fams, fontResources toy (s.build toy) = some (sources, fams) ∧
      ∃ f ∈ available toy toyDisk toyOpts, f.source = .file 2 ∧ f.index = 0 ∧
      ∀ fam ∈ fams, ∀ x ∈ fam.2, ∀ k, x.source = some k → sources[k]? = some (.file 2) → x.index = 2 := by
  obtain ⟨s, e, h⟩ := example_listed
  refine ⟨s, e, _, _, h, ⟨.file 2, 20, 0, (20, 0)⟩, ?_, rfl, rfl, ?_⟩
  · have : available toy toyDisk toyOpts = [⟨.file 1, 10, 0, (10, 0)⟩, ⟨.file 1, 10, 1, (10, 1)⟩,
        ⟨.file 2, 20, 0, (20, 0)⟩, ⟨.memory, 30, 0, (30, 0)⟩, ⟨.memory, 30, 1, (30, 1)⟩] := rfl
    rw [this]; simp
  · decide

end Tinymist.Fonts
