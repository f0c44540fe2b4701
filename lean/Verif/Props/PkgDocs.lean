import Verif.Lemmas.PkgDocs
import Verif.Lemmas.References

/-!
# C143: the documentation of a package

The sections that are written for a package are those of the files it exports something from, each of them once, and a section
lists what its file exports. A link from a definition that is exported again leads to a heading if its file exports it under
the same name.
-/

namespace Tinymist.PkgDocs

/-! ## The tree -/

/-- The tree of a package: the children of the root are what it exports, and modules `ex`. -/
structure Tree (w : World) (T : Def) (al : Aliases) (es : List (Text × Exp)) (cs ex : List Def) : Prop where
  file : T.file = some w.root
  children : T.children = cs ++ ex
  heads : cs.map Def.head = es.map (headOf w.root)
  nodup : ((docsL (cs ++ ex)).map Def.file).Nodup
  files : ∀ g, some g ∈ (docsL (cs ++ ex)).map Def.file ↔ g ≠ w.root ∧ seen al g ∧ ∃ e es, w.exports g = some (e :: es)
  ready : AllL (Ready w al) (cs ++ ex)
  rootSeen : seen al w.root
  reach : ∀ g, w.exports g ≠ none → (Reach w g ↔ seen al g)
  sound : ∀ g p, p ∈ al.of g → Leads w p g

theorem allL_and {P Q : Def → Prop} : ∀ l, AllL P l → AllL Q l → AllL (fun d => P d ∧ Q d) l
  | [], _, _ => trivial
  | .mk _ _ _ _ cs :: ds, hp, hq => ⟨⟨⟨hp.1.1, hq.1.1⟩, allL_and cs hp.1.2 hq.1.2⟩, allL_and ds hp.2 hq.2⟩

theorem leads_reach {w : World} {p : Path} {g : Nat} (h : Leads w p g) : w.exports g ≠ none → Reach w g := by
  induction h with
  | root => exact fun _ => .root
  | module _ hex _ hf hs ih =>
    refine fun hne => .step (ih ?_) hex hf hs hne
    obtain ⟨es, _, he, _⟩ := hex
    rw [he]; simp
  | inside _ hex hf hs ih =>
    refine fun hne => .step (ih ?_) hex hf hs hne
    obtain ⟨es, _, he, _⟩ := hex
    rw [he]; simp

theorem tree_of {w : World} {files : List Nat} {es : List (Text × Exp)} {fuel : Nat} (hall : AllFiles w files)
    (hs : w.same w.root = true) (he : w.exports w.root = some es) (hf : 2 * files.length + 1 ≤ fuel) :
    ∃ T al cs ex, moduleDocs w fuel = some (T, al) ∧ Tree w T al es cs ex := by
  cases fuel with
  | zero => omega
  | succ fuel =>
    have hmod : w.moduleOf (.mod w.root) = some w.root := by simp [World.moduleOf, Decl.mod, Option.filter, hs]
    have hpre : Pre w [] (w.stem w.root) (.mod w.root) :=
      ⟨fun _ x hx _ => by cases hx; exact .root, fun x hx => by cases hx⟩
    have hends := (scanDef_ends hall (fuel + 1)).1 files.length hf (w.stem w.root) [] w.root (.mod w.root)
      ⟨fun _ => none, []⟩ hpre (by unfold unseen; exact List.countP_le_length)
    unfold moduleDocs
    rw [scanDef, hmod] at hends ⊢
    have h0 : (Aliases.of (fun _ => none) w.root) = [] := rfl
    simp only [if_pos h0, he] at hends ⊢
    have hx : ∀ n e d, (n, e) ∈ es → Means e d → Exports w w.root n d := fun n e d hmem hmean => ⟨es, e, he, hmem, hmean⟩
    cases hr : scanAll (scanDef w fuel) [] w.root es ⟨Aliases.push (fun _ => none) w.root [], []⟩ with
    | none => rw [hr] at hends; cases hends
    | some r =>
      obtain ⟨cs, st⟩ := r
      obtain ⟨ex, p, hheads, htook⟩ := scanAll_post (scanDef_post w fuel) .root es _ cs st hx hr
      have hpush : ∀ g, seen (Aliases.push (fun _ => none) w.root []) g ↔ g = w.root := by
        intro g
        unfold seen
        rw [of_push]
        by_cases h : g = w.root
        · simp [h]
        · rw [if_neg h]
          exact ⟨fun h => (h rfl).elim, fun h' => (h h').elim⟩
      have hroot : seen st.aliases w.root := p.seen ((hpush _).2 rfl)
      have hsound : ∀ g q, q ∈ st.aliases.of g → Leads w q g := by
        intro g q hq
        rcases p.sound g q hq with h | h
        · have h : q ∈ (Aliases.push (fun _ => none) w.root []).of g := h
          rw [of_push] at h
          by_cases hg : g = w.root
          · rw [if_pos hg] at h
            simp only [Aliases.of, Option.getD_none, List.nil_append, List.mem_singleton] at h
            rw [hg, h]; exact .root
          · rw [if_neg hg] at h; cases h
        · exact h.2
      refine ⟨.mk (w.stem w.root) .module (some (.mod w.root)) ((Decl.mod w.root).outside w.root) (cs ++ st.extras), st.aliases,
        cs, ex, ?_, ⟨rfl, ?_, hheads, p.nodup, ?_, allL_and _ p.faithful p.known, hroot, ?_, hsound⟩⟩
      · simp only [show (Decl.mod w.root).file = some w.root from rfl]
        rw [if_neg (fun h => hroot h.2)]
        rfl
      · have := p.extras
        dsimp only at this
        simp only [Def.children]
        rw [this, List.nil_append]
      · intro g
        rw [p.files, hpush]
      · intro g hne
        constructor
        · intro hreach
          clear hne
          induction hreach with
          | root => exact hroot
          | @step f n d g hrf hex hfile hsame hne ih =>
            by_cases hfr : f = w.root
            · subst hfr
              obtain ⟨es', e, h1, h2, h3⟩ := hex
              rw [he] at h1
              cases h1
              exact htook n e d h2 h3 g hfile hsame hne
            · exact p.closed f (fun h => hfr ((hpush f).1 h)) ih n d g hex hfile hsame hne
        · intro hseen
          obtain ⟨q, qs, hq⟩ := List.exists_cons_of_ne_nil hseen
          exact leads_reach (hsound g q (by rw [hq]; exact List.mem_cons_self ..)) hne

/-! ## The sections -/

/-- What is known about the section of a file. -/
structure Told (w : World) (al : Aliases) (s : Section) (g : Nat) (es : List (Text × Exp)) (cs more : List Def) : Prop where
  file : s.file = some g
  reach : Reach w g
  exports : w.exports g = some es
  heads : cs.map Def.head = es.map (headOf g)
  own : g ≠ w.root → more = []
  ready : AllL (Ready w al) (cs ++ more)
  seen : seen al g
  primary : primaryOf al (some g) = some s.primary
  entries : entriesOf w al (some g) s.primary (cs ++ more) = some s.entries

/-- The sections of a package. -/
structure Written (w : World) (al : Aliases) (ss : List Section) : Prop where
  nodup : (ss.map Section.file).Nodup
  files : ∀ g, some g ∈ ss.map Section.file ↔ g = w.root ∨ (Reach w g ∧ ∃ e es, w.exports g = some (e :: es))
  told : ∀ s ∈ ss, ∃ g es cs more, Told w al s g es cs more
  sound : ∀ g p, p ∈ al.of g → Leads w p g

theorem docs_ne {l : List Def} : ∀ x ∈ docsL l, x.children ≠ [] := docs_file.docsL_ne l

theorem written_of {w : World} {files : List Nat} {es : List (Text × Exp)} {fuel : Nat} (hall : AllFiles w files)
    (hs : w.same w.root = true) (he : w.exports w.root = some es) (hf : 2 * files.length + 1 ≤ fuel) :
    ∃ ss al, packageDocs w fuel = some ss ∧ Written w al ss := by
  obtain ⟨T, al, cs, ex, hm, ht⟩ := tree_of hall hs he hf
  have hknown : ∀ g, seen al g → al g ≠ none := fun g h hn => h (by simp [Aliases.of, hn])
  have hflat : [T].flatMap Def.children = cs ++ ex := by simp [ht.children]
  have hfact : ∀ d ∈ docsL (cs ++ ex), ∃ g es', d.file = some g ∧ w.same g = true ∧ w.exports g = some es' ∧
      d.children.map Def.head = es'.map (headOf g) ∧ Known w al d ∧ AllL (Ready w al) d.children := by
    intro d hd
    have h := all_docsL _ ht.ready d hd
    obtain ⟨g, es', h1, h2, h3, h4⟩ := h.here.1 (docs_ne d hd)
    exact ⟨g, es', h1, h2, h3, h4, h.here.2, h.children⟩
  have hlen : (docsL (cs ++ ex)).length ≤ files.length := by
    have hget : ((docsL (cs ++ ex)).map Def.file).map (fun o => o.getD 0) ⊆ files := by
      intro x hx
      obtain ⟨o, ho, rfl⟩ := List.mem_map.1 hx
      obtain ⟨d, hd, rfl⟩ := List.mem_map.1 ho
      obtain ⟨g, es', h1, h2, h3, _⟩ := hfact d hd
      rw [h1]
      exact hall g h2 (by rw [h3]; simp)
    have hnd : (((docsL (cs ++ ex)).map Def.file).map (fun o => o.getD 0)).Nodup := by
      unfold List.Nodup
      rw [List.pairwise_map]
      refine List.Pairwise.imp_of_mem ?_ ht.nodup
      intro a b ha hb hne heq
      obtain ⟨d, hd, rfl⟩ := List.mem_map.1 ha
      obtain ⟨d', hd', rfl⟩ := List.mem_map.1 hb
      obtain ⟨g, _, h1, _⟩ := hfact d hd
      obtain ⟨g', _, h1', _⟩ := hfact d' hd'
      rw [h1, h1'] at hne heq
      exact hne (congrArg some heq)
    have := Scoping.length_le_of_subset hnd hget
    simpa using this
  obtain ⟨ss, D, hg, hp, hD⟩ := genLoop_eq (w := w) (al := al) fuel [T] []
    (by intro d hd; cases List.mem_singleton.1 hd; exact ⟨w.root, ht.file, hknown _ ht.rootSeen⟩)
    (by intro d hd; cases List.mem_singleton.1 hd; rw [ht.children]; exact ht.ready)
    (by rw [hflat]; exact ht.nodup) (by intro g h; cases h)
    (by
      rw [hflat]
      cases hfl : files with
      | nil =>
        have := hall w.root hs (by rw [he]; simp)
        rw [hfl] at this; cases this
      | cons x xs => rw [hfl] at hlen hf; simp only [List.length_cons] at hlen hf ⊢; omega)
  rw [hflat] at hp
  have hsec : ∀ d ∈ D, ∃ s g es' cs' more, sectionOf w al d = some s ∧ d.file = some g ∧ Told w al s g es' cs' more := by
    intro d hd
    have hd' := hp.mem_iff.1 hd
    rw [List.singleton_append, List.mem_cons] at hd'
    rcases hd' with rfl | hd'
    · obtain ⟨s, h1, h2, h3, h4⟩ := sectionOf_some (w := w) (al := al) ht.file (hknown _ ht.rootSeen)
        (by rw [ht.children]; exact ht.ready)
      rw [ht.children] at h4
      exact ⟨s, w.root, es, cs, ex, h1, ht.file, h2, .root, he, ht.heads, fun h => (h rfl).elim, ht.ready, ht.rootSeen,
        h3, h4⟩
    · obtain ⟨g, es', k1, k2, k3, k4, k5, k6⟩ := hfact d hd'
      obtain ⟨s, h1, h2, h3, h4⟩ := sectionOf_some (w := w) (al := al) k1 (k5 g k1 k2) k6
      have hseen := ((ht.files g).1 (List.mem_map.2 ⟨d, hd', k1⟩)).2.1
      have hne : w.exports g ≠ none := by rw [k3]; simp
      exact ⟨s, g, es', d.children, [], h1, k1, h2, (ht.reach g hne).2 hseen, k3, k4, fun _ => rfl,
        by rw [List.append_nil]; exact k6, hseen, h3, by rw [List.append_nil]; exact h4⟩
  have hfiles : ss.map Section.file = D.map Def.file := by
    have h2 : ∀ (D : List Def) (ss : List Section), D.map (sectionOf w al) = ss.map some →
        (∀ d ∈ D, ∃ s g es' cs' more, sectionOf w al d = some s ∧ d.file = some g ∧ Told w al s g es' cs' more) →
        ss.map Section.file = D.map Def.file := by
      intro D
      induction D with
      | nil => intro ss h _; cases ss with
        | nil => rfl
        | cons s ss => cases h
      | cons d D ih =>
        intro ss h h'
        cases ss with
        | nil => cases h
        | cons s ss =>
          rw [List.map_cons, List.map_cons, List.cons.injEq] at h
          obtain ⟨s', g, _, _, _, h3, h4, h5⟩ := h' d (List.mem_cons_self ..)
          rw [h.1] at h3
          cases h3
          rw [List.map_cons, List.map_cons, h5.file, h4, ih ss h.2 (fun x hx => h' x (List.mem_cons_of_mem _ hx))]
    exact h2 D ss hD hsec
  have hpf : (ss.map Section.file).Perm (some w.root :: (docsL (cs ++ ex)).map Def.file) := by
    rw [hfiles]
    have := hp.map Def.file
    rw [List.singleton_append, List.map_cons, ht.file] at this
    exact this
  refine ⟨ss, al, ?_, ⟨?_, ?_, ?_, ht.sound⟩⟩
  · unfold packageDocs
    rw [hm]
    exact hg
  · rw [hpf.nodup_iff, List.nodup_cons]
    exact ⟨fun h => ((ht.files w.root).1 h).1 rfl, ht.nodup⟩
  · intro g
    rw [hpf.mem_iff, List.mem_cons, ht.files, Option.some.injEq]
    by_cases hgr : g = w.root
    · simp [hgr]
    · simp only [hgr, false_or, ne_eq, not_false_eq_true, true_and]
      constructor
      · rintro ⟨a, b⟩
        refine ⟨(ht.reach g ?_).2 a, b⟩
        obtain ⟨e, es', h⟩ := b
        rw [h]; simp
      · rintro ⟨a, b⟩
        refine ⟨(ht.reach g ?_).1 a, b⟩
        obtain ⟨e, es', h⟩ := b
        rw [h]; simp
  · intro s hs
    have : some s ∈ D.map (sectionOf w al) := by rw [hD]; exact List.mem_map.2 ⟨s, hs, rfl⟩
    obtain ⟨d, hd, hds⟩ := List.mem_map.1 this
    obtain ⟨s', g, es', cs', more, h1, _, h3⟩ := hsec d hd
    rw [hds] at h1
    cases h1
    exact ⟨g, es', cs', more, h3⟩

/-! ## The claims -/

section
variable {w : World} {files : List Nat} {fuel : Nat} {ss : List Section}

/-- **C143**: the documentation of a package can be written, whatever its files export from one another: there is no panic, and
it ends. -/
theorem docs_made (hall : AllFiles w files) (hs : w.same w.root = true) (he : w.exports w.root ≠ none)
    (hf : 2 * files.length + 1 ≤ fuel) : ∃ ss, packageDocs w fuel = some ss := by
  obtain ⟨es, he⟩ := Option.ne_none_iff_exists'.1 he
  obtain ⟨ss, _, h, _⟩ := written_of hall hs he hf
  exact ⟨ss, h⟩

theorem written (hall : AllFiles w files) (hs : w.same w.root = true) (he : w.exports w.root ≠ none)
    (hf : 2 * files.length + 1 ≤ fuel) (hss : packageDocs w fuel = some ss) : ∃ al, Written w al ss := by
  obtain ⟨es, he⟩ := Option.ne_none_iff_exists'.1 he
  obtain ⟨ss', al, h, hw⟩ := written_of hall hs he hf
  rw [hss] at h
  cases h
  exact ⟨al, hw⟩

/-- **C143**: the sections are those of the entry point and of the files that have to do with the exports of the package and
export something. -/
theorem sections_of (hall : AllFiles w files) (hs : w.same w.root = true) (he : w.exports w.root ≠ none)
    (hf : 2 * files.length + 1 ≤ fuel) (hss : packageDocs w fuel = some ss) (g : Nat) :
    (∃ s ∈ ss, s.file = some g) ↔ g = w.root ∨ (Reach w g ∧ ∃ es, w.exports g = some es ∧ es ≠ []) := by
  obtain ⟨al, hw⟩ := written hall hs he hf hss
  have := hw.files g
  rw [List.mem_map] at this
  rw [this]
  constructor
  · rintro (h | ⟨a, e, es, h⟩)
    · exact Or.inl h
    · exact Or.inr ⟨a, e :: es, h, by simp⟩
  · rintro (h | ⟨a, es, h, hne⟩)
    · exact Or.inl h
    · cases es with
      | nil => exact (hne rfl).elim
      | cons e es => exact Or.inr ⟨a, e, es, h⟩

/-- **C143**: no file has two sections, and every section is that of a file. -/
theorem section_once (hall : AllFiles w files) (hs : w.same w.root = true) (he : w.exports w.root ≠ none)
    (hf : 2 * files.length + 1 ≤ fuel) (hss : packageDocs w fuel = some ss) :
    (ss.map Section.file).Nodup ∧ ∀ s ∈ ss, s.file ≠ none := by
  obtain ⟨al, hw⟩ := written hall hs he hf hss
  refine ⟨hw.nodup, fun s hs => ?_⟩
  obtain ⟨g, es, cs, more, h⟩ := hw.told s hs
  rw [h.file]; simp

theorem heads_listed {g : Nat} {cs : List Def} {es : List (Text × Exp)} (h : cs.map Def.head = es.map (headOf g)) :
    cs.map (fun c => (c.name, c.kind)) = es.map (fun e => (e.1, kindOf e.2)) := by
  have : (cs.map Def.head).map (fun h => (h.1, h.2.1)) = (es.map (headOf g)).map (fun h => (h.1, h.2.1)) := by rw [h]
  rw [List.map_map, List.map_map] at this
  calc
    _ = cs.map ((fun h => (h.1, h.2.1)) ∘ Def.head) := rfl
    _ = es.map ((fun h => (h.1, h.2.1)) ∘ headOf g) := this
    _ = _ := by
      refine List.map_congr_left fun e _ => ?_
      simp only [Function.comp, headOf, target_kind e.2]
      cases target e.2 <;> rfl

theorem told_heading {al : Aliases} {s : Section} {g : Nat} {es : List (Text × Exp)} {cs more : List Def}
    (h : Told w al s g es cs more) : s.entries.map Entry.heading = (cs ++ more).map (fun c => ⟨c.kind, c.name, s.primary⟩) := by
  obtain ⟨es', h1, h2, _⟩ := entriesOf_some (w := w) (al := al) (f := g)
    (fun hn => h.seen (by simp [Aliases.of, hn])) s.primary (cs ++ more) h.ready
  rw [h.entries] at h1
  cases h1
  exact h2

/-- **C143**: a section lists what its file exports, in order, with the kind of each; that of the entry point goes on with
modules that are not exported. -/
theorem section_lists (hall : AllFiles w files) (hs : w.same w.root = true) (he : w.exports w.root ≠ none)
    (hf : 2 * files.length + 1 ≤ fuel) (hss : packageDocs w fuel = some ss) {s : Section} (hmem : s ∈ ss) {g : Nat}
    (hg : s.file = some g) {es : List (Text × Exp)} (hes : w.exports g = some es) :
    (g ≠ w.root → Lists s es) ∧ (∃ own, Lists { s with entries := own } es ∧ own <+: s.entries) ∧
      ∀ e ∈ s.entries, e.heading.module = s.primary := by
  obtain ⟨al, hw⟩ := written hall hs he hf hss
  obtain ⟨g', es', cs, more, h⟩ := hw.told s hmem
  rw [h.file] at hg; cases hg
  rw [h.exports] at hes; cases hes
  have hh := told_heading h
  have hl := heads_listed h.heads
  have hnk : s.entries.map (fun e => (e.heading.name, e.heading.kind)) = (cs ++ more).map (fun c => (c.name, c.kind)) := by
    have := congrArg (List.map fun a : Anchor => (a.name, a.kind)) hh
    rw [List.map_map, List.map_map] at this
    exact this
  refine ⟨fun hne => ?_, ⟨s.entries.take cs.length, ?_, List.take_prefix ..⟩, fun e hmem => ?_⟩
  · unfold Lists
    rw [hnk, h.own hne, List.append_nil, hl]
  · unfold Lists
    dsimp only
    rw [List.map_take, hnk, List.map_append, List.take_left' (by simp), hl]
  · have : e.heading ∈ s.entries.map Entry.heading := List.mem_map.2 ⟨e, hmem, rfl⟩
    rw [hh] at this
    obtain ⟨c, _, hc⟩ := List.mem_map.1 this
    rw [← hc]

theorem primary_mem {al : Aliases} {g : Nat} {p : Text} (hs : seen al g) (h : primaryOf al (some g) = some p) :
    ∃ q ∈ al.of g, p = joined q := by
  unfold primaryOf akas at h
  cases ha : al g with
  | none => exact (hs (by simp [Aliases.of, ha])).elim
  | some ps =>
    simp only [ha, Option.map_some, Option.some.injEq] at h
    have hof : al.of g = ps := by simp [Aliases.of, ha]
    have hne : (ps.map joined).mergeSort pathLe ≠ [] := by
      intro hn
      have := congrArg List.length hn
      rw [List.length_mergeSort, List.length_map] at this
      exact hs (by rw [hof]; exact List.eq_nil_of_length_eq_zero this)
    obtain ⟨x, xs, hx⟩ := List.exists_cons_of_ne_nil hne
    rw [hx] at h
    have hx' : x ∈ ps.map joined := by
      rw [← List.mem_mergeSort (le := pathLe), hx]; exact List.mem_cons_self ..
    obtain ⟨q, hq, hqe⟩ := List.mem_map.1 hx'
    refine ⟨q, by rw [hof]; exact hq, ?_⟩
    rw [← h, hqe]; rfl

theorem pathLe_iff {a b : Text} : pathLe a b = true ↔ Before a b := by
  unfold pathLe Before byteLen
  simp only [Bool.or_eq_true, decide_eq_true_eq, Bool.and_eq_true, beq_iff_eq]

theorem before_trans {a b c : Text} (h1 : Before a b) (h2 : Before b c) : Before a c := by
  unfold Before at *
  rcases h1 with h1 | ⟨h1, l1⟩ <;> rcases h2 with h2 | ⟨h2, l2⟩
  · exact .inl (by omega)
  · exact .inl (by omega)
  · exact .inl (by omega)
  · exact .inr ⟨by omega, List.le_trans l1 l2⟩

theorem before_total (a b : Text) : Before a b ∨ Before b a := by
  unfold Before
  rcases Nat.lt_trichotomy (a.map Char.utf8Size).sum (b.map Char.utf8Size).sum with h | h | h
  · exact .inl (.inl h)
  · rcases List.le_total a b with l | l
    · exact .inl (.inr ⟨h, l⟩)
    · exact .inr (.inr ⟨h.symm, l⟩)
  · exact .inr (.inl h)

/-- **C143**: of the paths under which a file is known, in order, the section has the first: a shortest one. -/
theorem shortest_shown {al : Aliases} {g : Nat} {p : Text} (h : primaryOf al (some g) = some p) {q : Path} (hq : q ∈ al.of g) :
    Before p (joined q) := by
  unfold primaryOf akas at h
  cases ha : al g with
  | none => simp [Aliases.of, ha] at hq
  | some ps =>
    simp only [ha, Option.map_some, Option.some.injEq] at h
    have hof : al.of g = ps := by simp [Aliases.of, ha]
    rw [hof] at hq
    have hm : joined q ∈ (ps.map joined).mergeSort pathLe := List.mem_mergeSort.2 (List.mem_map.2 ⟨q, hq, rfl⟩)
    have hsort : ((ps.map joined).mergeSort pathLe).Pairwise (fun a b => pathLe a b = true) :=
      List.pairwise_mergeSort (le := pathLe) (fun a b c h1 h2 => pathLe_iff.2 (before_trans (pathLe_iff.1 h1) (pathLe_iff.1 h2)))
        (fun a b => Bool.or_eq_true_iff.2 ((before_total a b).imp pathLe_iff.2 pathLe_iff.2)) _
    cases hl : (ps.map joined).mergeSort pathLe with
    | nil => rw [hl] at hm; cases hm
    | cons x xs =>
      rw [hl] at h hm hsort
      have hx : x = p := h
      rw [List.pairwise_cons] at hsort
      rcases List.mem_cons.1 hm with e | e
      · rw [e, hx]; exact .inr ⟨rfl, List.le_refl _⟩
      · rw [← hx]; exact pathLe_iff.1 (hsort.1 _ e)

/-- **C143**: the name of a section is a path that leads to its file. -/
theorem section_path (hall : AllFiles w files) (hs : w.same w.root = true) (he : w.exports w.root ≠ none)
    (hf : 2 * files.length + 1 ≤ fuel) (hss : packageDocs w fuel = some ss) {s : Section} (hmem : s ∈ ss) {g : Nat}
    (hg : s.file = some g) : ∃ p, Leads w p g ∧ s.primary = joined p := by
  obtain ⟨al, hw⟩ := written hall hs he hf hss
  obtain ⟨g', es', cs, more, h⟩ := hw.told s hmem
  rw [h.file] at hg; cases hg
  obtain ⟨q, hq, e⟩ := primary_mem h.seen h.primary
  exact ⟨q, hw.sound _ q hq, e⟩

/-! ### Links -/

/-- The entry of an export. -/
theorem told_entry {al : Aliases} {s : Section} {g : Nat} {es : List (Text × Exp)} {cs more : List Def}
    (h : Told w al s g es cs more) {i : Nat} {n : Text} {e : Exp} (hi : es[i]? = some (n, e)) :
    ∃ c en, s.entries[i]? = some en ∧ entryOf w al (some g) s.primary c = some en ∧ c.head = headOf g (n, e) ∧
      Ready w al c := by
  obtain ⟨es', h1, h2, h3⟩ := entriesOf_some (w := w) (al := al) (f := g)
    (fun hn => h.seen (by simp [Aliases.of, hn])) s.primary (cs ++ more) h.ready
  rw [h.entries] at h1
  cases h1
  have hc : (cs.map Def.head)[i]? = some (headOf g (n, e)) := by
    rw [h.heads, List.getElem?_map, hi]; rfl
  rw [List.getElem?_map, Option.map_eq_some_iff] at hc
  obtain ⟨c, hci, hch⟩ := hc
  have hci' : (cs ++ more)[i]? = some c := by
    rw [List.getElem?_append_left (List.getElem?_eq_some_iff.1 hci).1]; exact hci
  have hen : (s.entries.map Entry.heading)[i]? = some ⟨c.kind, c.name, s.primary⟩ := by
    rw [h2, List.getElem?_map, hci']; rfl
  rw [List.getElem?_map, Option.map_eq_some_iff] at hen
  obtain ⟨en, hen, _⟩ := hen
  exact ⟨c, en, hen, h3 i c en hci' hen, hch, (allL_mem.1 h.ready c (List.mem_of_getElem? hci')).here⟩

theorem headOf_means {g : Nat} {n : Text} {e : Exp} {d : Decl} (h : Means e d) :
    headOf g (n, e) = (n, d.kind, some d, d.outside g) := by
  unfold headOf
  simp only [target_means.2 h]

/-- The link of a definition from another file of the package. -/
theorem told_link {al : Aliases} {s : Section} {g : Nat} {es : List (Text × Exp)} {cs more : List Def}
    (h : Told w al s g es cs more) {i : Nat} {n : Text} {e : Exp} (hi : es[i]? = some (n, e)) {d : Decl} (hm : Means e d)
    {f : Nat} (hd : d.file = some f) (hne : f ≠ g) (hs : w.same f = true) :
    ∃ en, s.entries[i]? = some en ∧ en.link = (primaryOf al (some f)).map (Anchor.mk d.kind n) := by
  obtain ⟨c, en, h1, h2, h3, h4⟩ := told_entry h hi
  obtain ⟨en', k1, _, k3⟩ := entryOf_some (w := w) (al := al) (f := g)
    (fun hn => h.seen (by simp [Aliases.of, hn])) s.primary h4
  rw [h2] at k1
  cases k1
  rw [headOf_means hm, Def.head, Prod.mk.injEq, Prod.mk.injEq, Prod.mk.injEq] at h3
  obtain ⟨e1, e2, e3, e4⟩ := h3
  refine ⟨en, h1, ?_⟩
  rw [k3 f (by rw [fileOf, e3]; simp [hd]) (by rw [e4, Decl.outside, hd]; simp [hne]) hs, e1, e2]

/-- **C143**: a definition that is exported again is linked to the section of the file it is defined in. -/
theorem external_linked (hall : AllFiles w files) (hs : w.same w.root = true) (he : w.exports w.root ≠ none)
    (hf : 2 * files.length + 1 ≤ fuel) (hss : packageDocs w fuel = some ss) {s t : Section} (hmem : s ∈ ss) {g f : Nat}
    (hg : s.file = some g) {es : List (Text × Exp)} (hes : w.exports g = some es) {i : Nat} {n : Text} {e : Exp}
    (hi : es[i]? = some (n, e)) {d : Decl} (hm : Means e d) (hd : d.file = some f) (hne : f ≠ g) (hsame : w.same f = true)
    (ht : t ∈ ss) (htf : t.file = some f) :
    ∃ en, s.entries[i]? = some en ∧ en.link = some ⟨d.kind, n, t.primary⟩ := by
  obtain ⟨al, hw⟩ := written hall hs he hf hss
  obtain ⟨g', es', cs, more, h⟩ := hw.told s hmem
  rw [h.file] at hg; cases hg
  rw [h.exports] at hes; cases hes
  obtain ⟨f', es2, cs2, more2, h2⟩ := hw.told t ht
  rw [h2.file] at htf; cases htf
  obtain ⟨en, h3, h4⟩ := told_link h hi hm hd hne hsame
  exact ⟨en, h3, by rw [h4, h2.primary]; rfl⟩

/-- **C143**: what is defined in the file itself, or outside of the package, has no link. -/
theorem local_unlinked (hall : AllFiles w files) (hs : w.same w.root = true) (he : w.exports w.root ≠ none)
    (hf : 2 * files.length + 1 ≤ fuel) (hss : packageDocs w fuel = some ss) {s : Section} (hmem : s ∈ ss) {g : Nat}
    (hg : s.file = some g) {es : List (Text × Exp)} (hes : w.exports g = some es) {i : Nat} {n : Text} {e : Exp}
    (hi : es[i]? = some (n, e)) (hout : ∀ d f, Means e d → d.file = some f → f = g ∨ w.same f = false) :
    ∃ en, s.entries[i]? = some en ∧ en.link = none := by
  obtain ⟨al, hw⟩ := written hall hs he hf hss
  obtain ⟨g', es', cs, more, h⟩ := hw.told s hmem
  rw [h.file] at hg; cases hg
  rw [h.exports] at hes; cases hes
  obtain ⟨c, en, h1, h2, h3, _⟩ := told_entry h hi
  refine ⟨en, h1, ?_⟩
  have hx : ∀ f, fileOf (some g) c = some f → ¬ (c.isExternal = true ∧ w.same f = true) := by
    intro f hfo ⟨hext, hsm⟩
    unfold headOf at h3
    rw [Def.head] at h3
    cases ht : target e with
    | decl d =>
      simp only [ht, Prod.mk.injEq] at h3
      obtain ⟨_, _, e3, e4⟩ := h3
      rw [e4, Decl.outside] at hext
      cases hdf : d.file with
      | none => rw [hdf] at hext; cases hext
      | some x =>
        rw [fileOf, e3] at hfo
        simp only [Option.bind_some, hdf, Option.some_or, Option.some.injEq] at hfo
        subst hfo
        rcases hout d x (target_means.1 ht) hdf with k | k
        · rw [hdf] at hext; simp [k] at hext
        · rw [k] at hsm; cases hsm
    | select => simp only [ht, Prod.mk.injEq] at h3; rw [h3.2.2.2] at hext; cases hext
    | other => simp only [ht, Prod.mk.injEq] at h3; rw [h3.2.2.2] at hext; cases hext
    | ref r => simp only [ht, Prod.mk.injEq] at h3; rw [h3.2.2.2] at hext; cases hext
  unfold entryOf at h2
  cases hfo : fileOf (some g) c with
  | none =>
    simp only [hfo] at h2
    split at h2 <;> cases h2 <;> rfl
  | some f =>
    simp only [hfo, if_neg (hx f hfo)] at h2
    split at h2
    · cases h2; rfl
    · rw [Option.map_eq_some_iff] at h2
      obtain ⟨_, _, rfl⟩ := h2
      rfl

/-- **C143**, in part: the link of a definition that is exported again leads to a heading if its file exports it under the same
name, as the same kind. Missing: a definition exported under another name, and modules (`renamed_dangling`,
`module_dangling`). -/
theorem link_resolves_partial (hall : AllFiles w files) (hs : w.same w.root = true) (he : w.exports w.root ≠ none)
    (hf : 2 * files.length + 1 ≤ fuel) (hss : packageDocs w fuel = some ss) {s : Section} (hmem : s ∈ ss) {g f : Nat}
    (hg : s.file = some g) {es es' : List (Text × Exp)} (hes : w.exports g = some es) {i : Nat} {n : Text} {e e' : Exp}
    (hi : es[i]? = some (n, e)) {d : Decl} (hm : Means e d) (hd : d.file = some f) (hne : f ≠ g) (hsame : w.same f = true)
    (hes' : w.exports f = some es') (hi' : (n, e') ∈ es') (hk : kindOf e' = d.kind) :
    ∃ en a, s.entries[i]? = some en ∧ en.link = some a ∧ HasHeading ss a := by
  have hreach : Reach w f := by
    obtain ⟨al, hw⟩ := written hall hs he hf hss
    obtain ⟨g', es2, cs, more, h⟩ := hw.told s hmem
    rw [h.file] at hg; cases hg
    exact .step h.reach ⟨es, e, hes, List.mem_of_getElem? hi, hm⟩ hd hsame (by rw [hes']; simp)
  obtain ⟨t, ht, htf⟩ := (sections_of hall hs he hf hss f).2
    (Or.inr ⟨hreach, es', hes', fun h => by rw [h] at hi'; cases hi'⟩)
  obtain ⟨en, h1, h2⟩ := external_linked hall hs he hf hss hmem hg hes hi hm hd hne hsame ht htf
  refine ⟨en, _, h1, h2, t, ht, ?_⟩
  obtain ⟨_, ⟨own, hl, hpre⟩, hmod⟩ := section_lists hall hs he hf hss ht htf hes'
  have : (n, kindOf e') ∈ own.map (fun e => (e.heading.name, e.heading.kind)) := by
    unfold Lists at hl
    dsimp only at hl
    rw [hl]
    exact List.mem_map.2 ⟨(n, e'), hi', rfl⟩
  obtain ⟨x, hx, hxe⟩ := List.mem_map.1 this
  have hx' := hpre.subset hx
  refine ⟨x, hx', ?_⟩
  rw [Prod.mk.injEq] at hxe
  have hm' := hmod x hx'
  obtain ⟨⟨k, nm, m⟩, lk⟩ := x
  simp only at hxe hm' ⊢
  rw [hxe.1, hxe.2, hm', hk]

/-! ### Names of sections -/

/-- The names a package exports are names, and no file exports a name twice. -/
def Named (w : World) : Prop := ∀ f es, w.exports f = some es → (es.map Prod.fst).Nodup ∧
  ∀ n ∈ es.map Prod.fst, n ≠ [] ∧ '.' ∉ n ∧ n ≠ ['-']

theorem exports_fun (hn : Named w) {f : Nat} {n : Text} {d d' : Decl} (h : Exports w f n d) (h' : Exports w f n d') :
    d = d' := by
  obtain ⟨es, e, h1, h2, h3⟩ := h
  obtain ⟨es', e', k1, k2, k3⟩ := h'
  rw [h1] at k1
  cases k1
  have hnd := (hn f es h1).1
  have : e = e' := by
    clear h1 h3 k3 hn
    induction es with
    | nil => cases h2
    | cons x xs ih =>
      rw [List.map_cons, List.nodup_cons] at hnd
      rcases List.mem_cons.1 h2 with a | a <;> rcases List.mem_cons.1 k2 with b | b
      · rw [← a] at b; cases b; rfl
      · exact (hnd.1 (List.mem_map.2 ⟨_, b, by rw [← a]⟩)).elim
      · exact (hnd.1 (List.mem_map.2 ⟨_, a, by rw [← b]⟩)).elim
      · exact ih a b hnd.2
  subst this
  have a := target_means.2 h3
  rw [target_means.2 k3] at a
  cases a
  rfl

theorem exports_name (hn : Named w) {f : Nat} {n : Text} {d : Decl} (h : Exports w f n d) : n ≠ [] ∧ '.' ∉ n ∧ n ≠ ['-'] := by
  obtain ⟨es, e, h1, h2, _⟩ := h
  exact (hn f es h1).2 n (List.mem_map.2 ⟨_, h2, rfl⟩)

theorem leads_last (hn : Named w) {p : Path} {f : Nat} (h : Leads w p f) : ∀ q, p ≠ q ++ [['-']] := by
  intro q e
  cases h with
  | root => cases q <;> cases e
  | module _ hex _ _ _ =>
    have := List.append_inj' e rfl
    exact (exports_name hn hex).2.2 (by simpa using this.2)
  | @inside p f n d g _ hex _ _ =>
    rw [show p ++ [n] ++ [['-'], n] = (p ++ [n] ++ [['-']]) ++ [n] by simp] at e
    have := List.append_inj' e rfl
    exact (exports_name hn hex).2.2 (by simpa using this.2)

theorem leads_fun (hn : Named w) {p : Path} {g : Nat} (h : Leads w p g) : ∀ g', Leads w p g' → g = g' := by
  induction h with
  | root =>
    intro g' h'
    generalize hp : ([] : Path) = p at h'
    cases h' with
    | root => rfl
    | module => simp at hp
    | inside => simp at hp
  | @module p f n d g hl hex _ hf hs ih =>
    intro g' h'
    generalize hp : p ++ [n] = q at h'
    cases h' with
    | root => simp at hp
    | @module p' f' n' d' g' hl' hex' _ hf' _ =>
      obtain ⟨a, b⟩ := List.append_inj' hp rfl
      subst a
      simp only [List.cons.injEq, and_true] at b
      subst b
      have := ih f' hl'
      subst this
      rw [exports_fun hn hex hex'] at hf
      rw [hf] at hf'
      cases hf'; rfl
    | @inside p' f' n' d' g' hl' hex' hf' _ =>
      rw [show p' ++ [n'] ++ [['-'], n'] = (p' ++ [n'] ++ [['-']]) ++ [n'] by simp] at hp
      exact (leads_last hn hl _ (List.append_inj' hp rfl).1).elim
  | @inside p f n d g hl hex hf hs ih =>
    intro g' h'
    generalize hp : p ++ [n] ++ [['-'], n] = q at h'
    cases h' with
    | root => simp at hp
    | @module p' f' n' d' g' hl' hex' _ hf' _ =>
      rw [show p ++ [n] ++ [['-'], n] = (p ++ [n] ++ [['-']]) ++ [n] by simp] at hp
      exact (leads_last hn hl' _ (List.append_inj' hp rfl).1.symm).elim
    | @inside p' f' n' d' g' hl' hex' hf' _ =>
      obtain ⟨a, b⟩ := List.append_inj' hp rfl
      obtain ⟨a, _⟩ := List.append_inj' a rfl
      subst a
      simp only [List.cons.injEq, and_true, true_and] at b
      subst b
      have := ih f' hl'
      subst this
      rw [exports_fun hn hex hex'] at hf
      rw [hf] at hf'
      cases hf'; rfl

theorem leads_plain (hn : Named w) {p : Path} {g : Nat} (h : Leads w p g) : ∀ n ∈ p, n ≠ [] ∧ '.' ∉ n := by
  induction h with
  | root => intro n hn; cases hn
  | module _ hex _ _ _ ih =>
    intro n hmem
    rcases List.mem_append.1 hmem with h | h
    · exact ih n h
    · cases List.mem_singleton.1 h
      have := exports_name hn hex
      exact ⟨this.1, this.2.1⟩
  | @inside p f m d g _ hex _ _ ih =>
    intro n hmem
    have hm := exports_name hn hex
    rcases List.mem_append.1 hmem with h | h
    · rcases List.mem_append.1 h with h | h
      · exact ih n h
      · cases List.mem_singleton.1 h; exact ⟨hm.1, hm.2.1⟩
    · rcases List.mem_cons.1 h with h | h
      · subst h; decide
      · cases List.mem_singleton.1 h; exact ⟨hm.1, hm.2.1⟩

theorem dot_split {a b x y : Text} (ha : '.' ∉ a) (hb : '.' ∉ b) (h : a ++ '.' :: x = b ++ '.' :: y) : a = b ∧ x = y := by
  induction a generalizing b with
  | nil =>
    cases b with
    | nil => simpa using h
    | cons c b =>
      simp only [List.nil_append, List.cons_append, List.cons.injEq] at h
      exact (hb (by rw [← h.1]; exact List.mem_cons_self ..)).elim
  | cons c a ih =>
    cases b with
    | nil =>
      simp only [List.nil_append, List.cons_append, List.cons.injEq] at h
      exact (ha (by rw [h.1]; exact List.mem_cons_self ..)).elim
    | cons c' b =>
      simp only [List.cons_append, List.cons.injEq] at h
      obtain ⟨h1, h2⟩ := ih (fun h' => ha (List.mem_cons_of_mem _ h')) (fun h' => hb (List.mem_cons_of_mem _ h')) h.2
      exact ⟨by rw [h.1, h1], h2⟩

theorem joined_inj : ∀ p q : Path, (∀ n ∈ p, n ≠ [] ∧ '.' ∉ n) → (∀ n ∈ q, n ≠ [] ∧ '.' ∉ n) → joined p = joined q → p = q
  | [], [], _, _, _ => rfl
  | [], [n], _, hq, h => ((hq n (List.mem_cons_self ..)).1 h.symm).elim
  | [], n :: m :: rest, _, _, h => by simp [joined] at h
  | [n], [], hp, _, h => ((hp n (List.mem_cons_self ..)).1 h).elim
  | n :: m :: rest, [], _, _, h => by simp [joined] at h
  | [n], [n'], _, _, h => by rw [show n = n' from h]
  | [n], n' :: m' :: rest', hp, _, h => by
    refine ((hp n (List.mem_cons_self ..)).2 ?_).elim
    rw [show n = n' ++ '.' :: joined (m' :: rest') from h]
    simp
  | n :: m :: rest, [n'], _, hq, h => by
    refine ((hq n' (List.mem_cons_self ..)).2 ?_).elim
    rw [← show n ++ '.' :: joined (m :: rest) = n' from h]
    simp
  | n :: m :: rest, n' :: m' :: rest', hp, hq, h => by
    have h : n ++ '.' :: joined (m :: rest) = n' ++ '.' :: joined (m' :: rest') := h
    obtain ⟨a, b⟩ := dot_split (hp n (List.mem_cons_self ..)).2 (hq n' (List.mem_cons_self ..)).2 h
    rw [a, joined_inj (m :: rest) (m' :: rest') (fun x hx => hp x (List.mem_cons_of_mem _ hx))
      (fun x hx => hq x (List.mem_cons_of_mem _ hx)) b]

/-- **C143**: no two sections have the same name, so that a link says which section is meant. -/
theorem section_names (hn : Named w) (hall : AllFiles w files) (hs : w.same w.root = true) (he : w.exports w.root ≠ none)
    (hf : 2 * files.length + 1 ≤ fuel) (hss : packageDocs w fuel = some ss) : (ss.map Section.primary).Nodup := by
  have hnd := (section_once hall hs he hf hss)
  unfold List.Nodup at hnd ⊢
  rw [List.pairwise_map] at hnd ⊢
  refine List.Pairwise.imp_of_mem ?_ hnd.1
  intro a b ha hb hne heq
  obtain ⟨g, hg⟩ := Option.ne_none_iff_exists'.1 (hnd.2 a ha)
  obtain ⟨g', hg'⟩ := Option.ne_none_iff_exists'.1 (hnd.2 b hb)
  obtain ⟨p, hp, ep⟩ := section_path hall hs he hf hss ha hg
  obtain ⟨q, hq, eq⟩ := section_path hall hs he hf hss hb hg'
  rw [ep, eq] at heq
  have := joined_inj p q (leads_plain hn hp) (leads_plain hn hq) heq
  subst this
  rw [hg, hg', leads_fun hn hp g' hq] at hne
  exact hne rfl

end

/-! ## What goes wrong -/

/-- A package of two files, both of which can be read. -/
def small (root other : List (Text × Exp)) : World where
  same := fun _ => true
  exports := fun g => if g = 0 then some root else if g = 1 then some other else none
  stem := fun _ => ['o']
  root := 0

theorem small_files (root other : List (Text × Exp)) : AllFiles (small root other) [0, 1] := by
  intro g _ h
  by_cases h0 : g = 0
  · simp [h0]
  · by_cases h1 : g = 1
    · simp [h1]
    · simp [small, h0, h1] at h

def fn : Decl := ⟨.function, false, some 1⟩

/-- The entry point exports the function `x` of another file as `y`. -/
def renamed : World := small [(['y'], .ref (.decl fn))] [(['x'], .decl fn)]

/-- **C143**, negated in part: the link of a definition that is exported under another name leads nowhere. -/
theorem renamed_dangling : ∃ ss s en a, packageDocs renamed 5 = some ss ∧ s ∈ ss ∧ en ∈ s.entries ∧ en.link = some a ∧
    ¬ HasHeading ss a := by
  refine ⟨[⟨some 0, [], [⟨⟨.function, ['y'], []⟩, some ⟨.function, ['y'], ['y', '.', '-', '.', 'y']⟩⟩,
      ⟨⟨.module, ['o'], []⟩, some ⟨.module, ['o'], ['y', '.', '-', '.', 'y']⟩⟩]⟩,
    ⟨some 1, ['y', '.', '-', '.', 'y'], [⟨⟨.function, ['x'], ['y', '.', '-', '.', 'y']⟩, none⟩]⟩],
    _, _, _, by decide +kernel, List.mem_cons_self .., List.mem_cons_self .., rfl, ?_⟩
  rintro ⟨s, hs, e, he, h⟩
  simp only [List.mem_cons, List.not_mem_nil, or_false] at hs
  rcases hs with rfl | rfl
  · simp only [List.mem_cons, List.not_mem_nil, or_false] at he
    rcases he with rfl | rfl <;> cases h
  · simp only [List.mem_cons, List.not_mem_nil, or_false] at he
    subst he; cases h

/-- The entry point exports a module `m`. -/
def withModule : World := small [(['m'], .decl (.mod 1))] [(['x'], .decl fn)]

/-- **C143**, negated in part: the link of a module leads nowhere, as it is to a heading in its own section. -/
theorem module_dangling : ∃ ss s en a, packageDocs withModule 5 = some ss ∧ s ∈ ss ∧ en ∈ s.entries ∧ en.link = some a ∧
    ¬ HasHeading ss a := by
  refine ⟨[⟨some 0, [], [⟨⟨.module, ['m'], []⟩, some ⟨.module, ['m'], ['m']⟩⟩]⟩,
    ⟨some 1, ['m'], [⟨⟨.function, ['x'], ['m']⟩, none⟩]⟩],
    _, _, _, by decide +kernel, List.mem_cons_self .., List.mem_cons_self .., rfl, ?_⟩
  rintro ⟨s, hs, e, he, h⟩
  simp only [List.mem_cons, List.not_mem_nil, or_false] at hs
  rcases hs with rfl | rfl
  · simp only [List.mem_cons, List.not_mem_nil, or_false] at he
    subst he; cases h
  · simp only [List.mem_cons, List.not_mem_nil, or_false] at he
    subst he; cases h

/-- A module with two names, that has a module. -/
def nested : World where
  same := fun _ => true
  exports := fun g => if g = 0 then some [(['a', 'a'], .decl (.mod 1)), (['z'], .decl (.mod 1))]
    else if g = 1 then some [(['c'], .decl (.mod 2))] else if g = 2 then some [(['x'], .decl ⟨.function, false, some 2⟩)] else none
  stem := fun _ => ['o']
  root := 0

/-- **C143**, negated in part: the names of a file are not all of those that lead to it, not even the shortest one is. -/
theorem shorter_missed : ∃ T al, moduleDocs nested 7 = some (T, al) ∧ Leads nested [['z'], ['c']] 2 ∧
    al.of 2 = [[['a', 'a'], ['c']]] := by
  refine ⟨_, _, rfl, ?_, rfl⟩
  have h1 : Leads nested [['z']] 1 := .module (p := []) (d := .mod 1) .root ⟨_, _, rfl, by simp, .decl _⟩ rfl rfl rfl
  exact .module (p := [['z']]) (d := .mod 2) h1 ⟨_, _, rfl, List.mem_cons_self .., .decl _⟩ rfl rfl rfl

/-! ## The claims are about something -/

/-- The hypotheses are met by a package in which files export from one another. -/
def circle : World := small [(['f'], .ref (.decl fn)), (['m'], .decl (.mod 1))] [(['f'], .decl fn), (['r'], .decl (.mod 0))]

example : AllFiles circle [0, 1] ∧ circle.same circle.root = true ∧ circle.exports circle.root ≠ none ∧ Named circle := by
  refine ⟨small_files _ _, rfl, by simp [circle, small], ?_⟩
  intro f es h
  by_cases h0 : f = 0
  · subst h0
    cases h
    refine ⟨by decide, ?_⟩
    decide
  · by_cases h1 : f = 1
    · subst h1
      cases h
      exact ⟨by decide, by decide⟩
    · simp [circle, small, h0, h1] at h

example : ∃ ss, packageDocs circle 5 = some ss ∧ ∃ s ∈ ss, s.file = some 1 :=
  have ⟨ss, h⟩ := docs_made (small_files _ _) (w := circle) (fuel := 5) rfl (by simp [circle, small]) (by decide)
  ⟨ss, h, (sections_of (small_files _ _) (w := circle) (fuel := 5) rfl (by simp [circle, small]) (by decide) h 1).2
    (Or.inr ⟨.step (n := ['m']) (d := .mod 1) .root ⟨_, _, rfl, by simp, .decl _⟩ rfl rfl (by simp [circle, small]), _, rfl, by simp⟩)⟩

end Tinymist.PkgDocs
