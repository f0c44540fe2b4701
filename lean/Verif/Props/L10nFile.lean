import Verif.Lemmas.L10nFile
/-!
# C87: the file of translations
-/
namespace Tinymist.L10n
open Pages

/-! ## The order of what is written -/

theorem le_total' (a b : Str) : a ≤ b ∨ b ≤ a := List.le_total a b

theorem sortKeys_sorted {β : Type} (m : List (Str × β)) : (sortKeys m).Pairwise fun a b => a.1 ≤ b.1 := by
  have := List.pairwise_mergeSort (le := fun a b : Str × β => decide (a.1 ≤ b.1))
    (fun a b c h1 h2 => by
      simp only [decide_eq_true_eq] at h1 h2 ⊢
      exact List.le_trans h1 h2)
    (fun a b => by
      simp only [Bool.or_eq_true, decide_eq_true_eq]
      exact List.le_total a.1 b.1) m
  exact this.imp fun h => of_decide_eq_true h

/-- The order of the entries of a hash map does not matter to what is written. -/
theorem sortKeys_unique {β : Type} {m m' : List (Str × β)} (hn : (m.map (·.1)).Nodup) (hp : m.Perm m') :
    sortKeys m = sortKeys m' := by
  apply List.Perm.eq_of_pairwise (le := fun a b : Str × β => a.1 ≤ b.1)
  · intro a b ha hb h1 h2
    have ha' : a ∈ m := (sortKeys_perm m).mem_iff.mp ha
    have hb' : b ∈ m := hp.mem_iff.mpr ((sortKeys_perm m').mem_iff.mp hb)
    have : a.1 = b.1 := List.le_antisymm h1 h2
    exact Util.eq_of_nodup_map (f := (·.1)) hn ha' hb' this
  · exact sortKeys_sorted m
  · exact sortKeys_sorted m'
  · exact ((sortKeys_perm m).trans hp).trans (sortKeys_perm m').symm

/-- The same map in another order is written the same. -/
theorem written_once {m m' : Map2} (h : Proper m) (hp : m.Perm m') : serialize m = serialize m' := by
  rw [serialize, serialize, sortKeys_unique h.1 hp]

/-! ## The messages of the program take effect -/

theorem translation_filter (p : Str → Bool) (m : Map2) (k l : Str) :
    translation (m.filter fun e => p e.1) k l = if p k = true then translation m k l else none := by
  rw [translation, translation]
  have : (m.filter fun e => p e.1).lookup k = if p k = true then m.lookup k else none := by
    induction m with
    | nil => simp
    | cons e m ih =>
      obtain ⟨a, d⟩ := e
      by_cases hk : k = a
      · subst hk
        by_cases hp : p k = true
        · rw [List.filter_cons_of_pos (p := fun e : Str × List (Str × Str) => p e.1) hp, if_pos hp]; simp
        · rw [List.filter_cons_of_neg (p := fun e : Str × List (Str × Str) => p e.1) hp, ih, if_neg hp, if_neg hp]
      · have hb : (k == a) = false := by simpa using hk
        rw [List.lookup_cons, hb, ← ih]
        by_cases hp : p a = true
        · rw [List.filter_cons_of_pos (p := fun e : Str × List (Str × Str) => p e.1) hp, List.lookup_cons, hb]
        · rw [List.filter_cons_of_neg (p := fun e : Str × List (Str × Str) => p e.1) hp]
  rw [this]
  split <;> rfl

theorem translation_puts {kvs : List (Str × Str)} : ∀ {m : Map2} {k l v : Str},
    (∀ a b b', (a, b) ∈ kvs → (a, b') ∈ kvs → b = b') →
    (translation (kvs.foldl (fun m kv => put2 m kv.1 en kv.2) m) k l = some v ↔
      (l = en ∧ (k, v) ∈ kvs) ∨ (¬ (l = en ∧ k ∈ kvs.map (·.1)) ∧ translation m k l = some v)) := by
  induction kvs with
  | nil => intro m k l v _; simp
  | cons e kvs ih =>
    intro m k l v hu
    obtain ⟨k0, v0⟩ := e
    rw [List.foldl_cons, ih fun a b b' h h' => hu a b b' (List.mem_cons_of_mem _ h) (List.mem_cons_of_mem _ h'),
      translation_put2]
    have hm : ∀ a b, (a, b) ∈ kvs → a ∈ kvs.map (·.1) := fun a b h => List.mem_map.mpr ⟨_, h, rfl⟩
    by_cases he : k = k0 ∧ l = en
    · obtain ⟨rfl, rfl⟩ := he
      simp only [and_self, if_true, true_and, List.mem_cons, List.map_cons, true_or, not_true, false_and, or_false,
        Option.some.injEq]
      constructor
      · rintro (h | ⟨_, h⟩)
        · exact .inr h
        · exact .inl (by rw [h])
      · rintro (h | h)
        · cases h
          by_cases hk : k ∈ kvs.map (·.1)
          · obtain ⟨⟨a, b⟩, hab, rfl⟩ := List.mem_map.mp hk
            have := hu a b v (List.mem_cons_of_mem _ hab) (List.mem_cons_self ..)
            subst this
            exact .inl hab
          · exact .inr ⟨hk, rfl⟩
        · exact .inl h
    · rw [if_neg he]
      simp only [List.mem_cons, List.map_cons, not_and, not_or]
      constructor
      · rintro (⟨h1, h2⟩ | ⟨h1, h2⟩)
        · exact .inl ⟨h1, .inr h2⟩
        · exact .inr ⟨fun hl => ⟨fun hk => he ⟨hk, hl⟩, h1 hl⟩, h2⟩
      · rintro (⟨h1, h2 | h2⟩ | ⟨h1, h2⟩)
        · cases h2; exact (he ⟨rfl, h1⟩).elim
        · exact .inl ⟨h1, h2⟩
        · exact .inr ⟨fun hl => (h1 hl).2, h2⟩

theorem proper_puts {kvs : List (Str × Str)} : ∀ {m : Map2}, Proper m →
    Proper (kvs.foldl (fun m kv => put2 m kv.1 en kv.2) m) := by
  induction kvs with
  | nil => intro m h; exact h
  | cons e kvs ih => intro m h; exact ih (proper_put2 h _ _ _)

theorem proper_filter {m : Map2} (h : Proper m) (p : Str × List (Str × Str) → Bool) : Proper (m.filter p) :=
  ⟨((List.filter_sublist).map _).nodup h.1, fun e he => h.2 e (List.mem_filter.mp he).1⟩

theorem keys_puts {kvs : List (Str × Str)} : ∀ {m : Map2} {k : Str},
    k ∈ (kvs.foldl (fun m kv => put2 m kv.1 en kv.2) m).map (·.1) → k ∈ m.map (·.1) ∨ k ∈ kvs.map (·.1) := by
  induction kvs with
  | nil => intro m k h; exact .inl h
  | cons e kvs ih =>
    intro m k h
    rw [List.foldl_cons] at h
    rcases ih h with h | h
    · rw [put2] at h
      rcases (keys_put _ _ _ _).mp h with h | h
      · exact .inr (by rw [h]; exact List.mem_cons_self ..)
      · exact .inl h
    · exact .inr (List.mem_cons_of_mem _ h)

/-- The updated map. -/
theorem translation_update {kvs : List (Str × Str)} {m : Map2} (hu : ∀ a b b', (a, b) ∈ kvs → (a, b') ∈ kvs → b = b')
    {k l v : Str} :
    translation (update kvs m) k l = some v ↔
      (l = en ∧ (k, v) ∈ kvs) ∨ (l ≠ en ∧ k ∈ kvs.map (·.1) ∧ translation m k l = some v) := by
  rw [update, translation_puts hu, translation_filter fun k => decide (k ∈ kvs.map (·.1))]
  by_cases hk : k ∈ kvs.map (·.1)
  · simp only [hk, decide_true, if_true, and_true, true_and]
  · simp only [hk, decide_false, and_false, not_false_eq_true, true_and, Bool.false_eq_true, if_false, false_and, reduceCtorEq]

/-- **C87.** The tool: it reads the file there is, if there is one (as `old`), and the messages of the program, one for each key;
keys and messages have no line breaks. It writes a file which says, of each key that is used: the English message of the program,
and the translation to every other language as before; nothing of other keys. The server reads the same from the file. -/
theorem file_updated_partial (existing : Option Str) (kvs : List (Str × Str)) (old : Map2)
    (hold : existing = none ∧ old = [] ∨ ∃ t, existing = some t ∧ deserialize t true = .ok old)
    (one : ∀ a b b', (a, b) ∈ kvs → (a, b') ∈ kvs → b = b')
    (line : ∀ kv ∈ kvs, '\n' ∉ kv.1 ∧ '\n' ∉ kv.2 ∧ ∃ msg, kv.2 = '"' :: msg ++ ['"']) :
    ∃ text m m', updateDisk existing kvs = .ok text ∧ deserialize text true = .ok m ∧ deserialize text false = .ok m' ∧
      (∀ key lang v, translation m key lang = some v ↔
        (lang = "en".toList ∧ (key, v) ∈ kvs) ∨
          (lang ≠ "en".toList ∧ key ∈ kvs.map (·.1) ∧ translation old key lang = some v)) ∧
      (∀ key lang, translation m' lang key = translation m key lang) ∧
      ∀ kv ∈ kvs, ∃ a b, text = a ++ "\n[".toList ++ kv.1 ++ "]\nen = ".toList ++ kv.2 ++ '\n' :: b := by
  have hgood : Good old ∧ Proper old := by
    rcases hold with ⟨_, rfl⟩ | ⟨t, _, ht⟩
    · exact ⟨(by intro k l v h; cases h), by simp, (by intro e he; cases he)⟩
    · exact deserialize_good ht
  have hen : "en".toList = en := by decide +kernel
  rw [hen]
  let skvs := sortKeys kvs
  have hmem : ∀ e, e ∈ skvs ↔ e ∈ kvs := fun e => (sortKeys_perm kvs).mem_iff
  have hkeys : ∀ k, k ∈ skvs.map (·.1) ↔ k ∈ kvs.map (·.1) := fun k => ((sortKeys_perm kvs).map _).mem_iff
  have one' : ∀ a b b', (a, b) ∈ skvs → (a, b') ∈ skvs → b = b' :=
    fun a b b' h h' => one a b b' ((hmem _).mp h) ((hmem _).mp h')
  let new := update skvs old
  have hp : Proper new := proper_puts (proper_filter hgood.2 _)
  have ht : ∀ k l v, translation new k l = some v ↔
      (l = en ∧ (k, v) ∈ kvs) ∨ (l ≠ en ∧ k ∈ kvs.map (·.1) ∧ translation old k l = some v) := by
    intro k l v
    rw [translation_update one', hmem, hkeys]
  have hkey : ∀ e ∈ new, e.1 ∈ kvs.map (·.1) := by
    intro e he
    have h := keys_puts (List.mem_map_of_mem (f := (·.1)) he)
    rcases h with h | h
    · obtain ⟨f, hf, hfe⟩ := List.mem_map.mp h
      have := (List.mem_filter.mp hf).2
      rw [← hfe]
      exact (hkeys _).mp (by simpa using this)
    · exact (hkeys _).mp h
  have hens : ∀ e ∈ new, ∃ v, e.2.lookup en = some v := by
    intro e he
    obtain ⟨kv, hkv, hk⟩ := List.mem_map.mp (hkey e he)
    have := (ht e.1 en kv.2).mpr (.inl ⟨rfl, by rw [← hk]; exact hkv⟩)
    rw [translation, lookup_of_mem hp.1 he] at this
    exact ⟨kv.2, this⟩
  have hser := serialize_eq hens
  have hp' : Proper (sortKeys new) :=
    ⟨((sortKeys_perm new).map _).nodup_iff.mpr hp.1, fun e he => hp.2 e ((sortKeys_perm new).mem_iff.mp he)⟩
  have hmemn : ∀ e, e ∈ sortKeys new ↔ e ∈ new := fun e => (sortKeys_perm new).mem_iff
  have goodv : ∀ k l v, translation new k l = some v → GoodLang l ∧ Tight v ∧ '\n' ∉ v := by
    intro k l v h
    rcases (ht k l v).mp h with ⟨rfl, h'⟩ | ⟨_, _, h'⟩
    · obtain ⟨_, h2, msg, h3⟩ := line _ h'
      refine ⟨⟨⟨by decide, by decide⟩, by decide, by decide, by decide, by decide⟩, ?_, h2⟩
      simp only at h3
      rw [h3]
      refine ⟨?_, ?_⟩
      · intro c hc; simp at hc; subst hc; decide
      · intro c hc
        rw [List.getLast?_append] at hc
        simp at hc
        subst hc
        decide
    · exact (hgood.1 k l v h').2
  have hk' : ∀ e ∈ sortKeys new, '\n' ∉ e.1 := by
    intro e he
    obtain ⟨kv, hkv, hk⟩ := List.mem_map.mp (hkey e ((hmemn e).mp he))
    rw [← hk]
    exact (line kv hkv).1
  have hf' : ∀ e ∈ sortKeys new, ∀ f ∈ ordered e.2, GoodLang f.1 ∧ Tight f.2 ∧ '\n' ∉ f.2 := by
    intro e he f hf
    apply goodv e.1
    rw [translation, lookup_of_mem hp.1 ((hmemn e).mp he)]
    exact lookup_of_mem (hp'.2 e he) ((mem_ordered (hp'.2 e he) f).mp hf)
  have hd := fun b => deserialize_written b hk' hf'
  have hn := entries_nodup hp'
  have hent : ∀ k l v, (k, l, v) ∈ ((sortKeys new).flatMap fun e => (ordered e.2).map fun f => (e.1, f.1, f.2)) ↔
      translation new k l = some v := by
    intro k l v
    rw [translation_iff hp]
    simp only [List.mem_flatMap, List.mem_map, Prod.mk.injEq]
    constructor
    · rintro ⟨e, he, f, hf, rfl, rfl, rfl⟩
      exact ⟨e.2, (hmemn e).mp he, (mem_ordered (hp'.2 e he) f).mp hf⟩
    · rintro ⟨d, h1, h2⟩
      exact ⟨(k, d), (hmemn _).mpr h1, (l, v), (mem_ordered (hp.2 _ h1) _).mpr h2, rfl, rfl, rfl⟩
  have hm := fun k l v => translation_putAll true _ [] hn (fun e _ => rfl) k l v
  have hm' := fun k l v => translation_putAll false _ [] hn (fun e _ => rfl) k l v
  simp only [if_true, Bool.false_eq_true, if_false, hent] at hm hm'
  have hnone : ∀ a b v, ¬ translation [] a b = some v := fun a b v h => by cases h
  refine ⟨_, _, _, ?_, hd true, hd false, ?_, ?_, ?_⟩
  · have : updateDisk existing kvs = match serialize new with | none => .panic | some t => .ok t := by
      rcases hold with ⟨rfl, rfl⟩ | ⟨t, rfl, ht⟩
      · rfl
      · simp only [updateDisk, ht]; rfl
    rw [this, hser]
  · intro k l v
    rw [hm, ht]
    simp only [hnone, or_false]
  · intro k l
    apply Option.ext
    intro v
    rw [hm, hm']
    simp only [hnone, or_false]
  · intro kv hkv
    have hmem' : ∃ e ∈ sortKeys new, e.1 = kv.1 ∧ e.2.lookup en = some kv.2 := by
      obtain ⟨d, h1, h2⟩ := (translation_iff hp).mp ((ht kv.1 en kv.2).mpr (.inl ⟨rfl, hkv⟩))
      exact ⟨(kv.1, d), (hmemn _).mpr h1, rfl, lookup_of_mem (hp.2 _ h1) h2⟩
    obtain ⟨e, he, h1, h2⟩ := hmem'
    obtain ⟨x, y, hxy⟩ := List.append_of_mem he
    rw [hxy, fileLines, List.flatMap_append, List.flatMap_cons]
    have hord : ordered e.2 = (en, kv.2) :: sortKeys (e.2.filter fun f => decide (f.1 ≠ en)) := by rw [ordered, h2]; rfl
    rw [hord, sectionLines, h1]
    refine ⟨unlines ([] :: comment :: x.flatMap fun e => sectionLines e.1 (ordered e.2)),
      unlines (((sortKeys (e.2.filter fun f => decide (f.1 ≠ en))).map entryLine) ++
        (y.flatMap fun e => sectionLines e.1 (ordered e.2))), ?_⟩
    have e3 : "\n[".toList = ['\n', '['] := by decide +kernel
    have e4 : "]\nen = ".toList = ']' :: '\n' :: (en ++ [' ', '=', ' ']) := by decide +kernel
    rw [e3, e4]
    simp only [unlines, List.flatMap_cons, List.flatMap_append, List.map_cons, entryLine, List.nil_append, List.append_assoc,
      List.cons_append]

/-- The hypotheses are met: a key is kept, one is dropped, one is new. -/
example : ∃ text m, updateDisk (some "[a]\nen = \"x\"\nzh = \"y\"\n\n[b]\nen = \"z\"".toList) [("c".toList, "\"n\"".toList),
      ("a".toList, "\"w\"".toList)] = .ok text ∧ deserialize text true = .ok m ∧
    translation m "a".toList "en".toList = some "\"w\"".toList ∧ translation m "a".toList "zh".toList = some "\"y\"".toList ∧
    translation m "b".toList "en".toList = none ∧ translation m "c".toList "en".toList = some "\"n\"".toList := by
  have hd : deserialize "[a]\nen = \"x\"\nzh = \"y\"\n\n[b]\nen = \"z\"".toList true =
      .ok [("a".toList, [("en".toList, "\"x\"".toList), ("zh".toList, "\"y\"".toList)]),
        ("b".toList, [("en".toList, "\"z\"".toList)])] := by decide +kernel
  obtain ⟨text, m, _, h1, h2, _, h3, _⟩ := file_updated_partial
    (some "[a]\nen = \"x\"\nzh = \"y\"\n\n[b]\nen = \"z\"".toList)
    [("c".toList, "\"n\"".toList), ("a".toList, "\"w\"".toList)] _ (.inr ⟨_, rfl, hd⟩)
    (by
      intro a b b' h h'
      simp only [List.mem_cons, Prod.mk.injEq, List.not_mem_nil, or_false] at h h'
      rcases h with ⟨rfl, rfl⟩ | ⟨rfl, rfl⟩ <;> rcases h' with ⟨h, rfl⟩ | ⟨h, rfl⟩
      · rfl
      · exact absurd h (by decide +kernel)
      · exact absurd h (by decide +kernel)
      · rfl)
    (by
      intro kv h
      simp only [List.mem_cons, List.not_mem_nil, or_false] at h
      rcases h with rfl | rfl
      · exact ⟨by decide +kernel, by decide +kernel, ['n'], by decide +kernel⟩
      · exact ⟨by decide +kernel, by decide +kernel, ['w'], by decide +kernel⟩)
  refine ⟨text, m, h1, h2, (h3 _ _ _).mpr (.inl (by decide +kernel)), (h3 _ _ _).mpr (.inr (by decide +kernel)), ?_,
    (h3 _ _ _).mpr (.inl (by decide +kernel))⟩
  cases h : translation m "b".toList "en".toList with
  | none => rfl
  | some v =>
    rcases (h3 _ _ _).mp h with ⟨_, h⟩ | ⟨h, _⟩
    · simp only [List.mem_cons, Prod.mk.injEq, List.not_mem_nil, or_false] at h
      rcases h with ⟨h, _⟩ | ⟨h, _⟩ <;> exact absurd h (by decide +kernel)
    · exact (h rfl).elim

/-- **C87 is violated** for a message with a line break, which a Rust string may have: the file written cannot be read, neither
by the tool nor by the server. -/
theorem line_break_breaks :
    ∃ text, updateDisk none [("k".toList, "\"a\nb\"".toList)] = .ok text ∧ deserialize text true = .error ∧
      ∀ json, load json text = .error := by
  refine ⟨"\n# The translations are partially generated by copilot\n\n[k]\nen = \"a\nb\"\n".toList, ?_, ?_, ?_⟩
  · have h1 : ∀ {β : Type} (e : Str × β), sortKeys [e] = [e] := fun e => List.mergeSort_singleton ..
    have h0 : ∀ {β : Type}, sortKeys ([] : List (Str × β)) = [] := fun {β} => List.mergeSort_nil
    have hu : update [("k".toList, "\"a\nb\"".toList)] [] = [("k".toList, [(en, "\"a\nb\"".toList)])] := by decide +kernel
    have hf : ([(en, "\"a\nb\"".toList)].filter fun f => decide (f.1 ≠ en)) = [] := by decide +kernel
    have hl : ([(en, "\"a\nb\"".toList)] : List (Str × Str)).lookup en = some "\"a\nb\"".toList := by decide +kernel
    simp only [updateDisk, h1, hu, serialize, List.mapM_cons, List.mapM_nil, section_, hl, hf, h0]
    decide +kernel
  · decide +kernel
  · intro json
    have : deserialize "\n# The translations are partially generated by copilot\n\n[k]\nen = \"a\nb\"\n".toList false = .error := by
      decide +kernel
    simp only [load, this]

theorem splitEq_none {l : Str} (h : '=' ∉ l) : splitEq l = none := by
  induction l with
  | nil => rfl
  | cons c l ih =>
    rw [List.mem_cons, not_or] at h
    rw [splitEq, if_neg (Ne.symm h.1), ih h.2]
    rfl

theorem splitEq_found {l : Str} (h : '=' ∈ l) : ∃ p, splitEq l = some p := by
  induction l with
  | nil => cases h
  | cons c l ih =>
    rw [splitEq]
    split
    · exact ⟨_, rfl⟩
    · rename_i hc
      rcases List.mem_cons.mp h with rfl | h
      · exact absurd rfl hc
      · obtain ⟨p, hp⟩ := ih h
        exact ⟨(c :: p.1, p.2), by rw [hp]; rfl⟩

/-- **C87.** A file that has a line which is no heading, no comment and has no equals sign, behind lines that are as they should
be, is left as it is: the tool tells of an error and does not panic. -/
theorem broken_file_kept (t : Str) (kvs : List (Str × Str)) (good : List Str) (bad : Str) (rest : List Str)
    (hl : linesOf t = good ++ bad :: rest)
    (hg : ∀ l ∈ good, (∃ key, l = '[' :: key ++ [']']) ∨ (l.head? ≠ some '[' ∧ '=' ∈ l))
    (hb : bad.head? ≠ some '[') (he : '=' ∉ bad) : updateDisk (some t) kvs = .error := by
  have key : ∀ k m, readLines true k m (good ++ bad :: rest) = .error := by
    clear hl
    induction good with
    | nil => intro k m; rw [List.nil_append, readLines, if_neg hb, splitEq_none he]
    | cons l good ih =>
      have ih := ih fun x hx => hg x (.tail _ hx)
      intro k m
      rw [List.cons_append, readLines]
      rcases hg l (.head _) with ⟨key, rfl⟩ | ⟨h1, h2⟩
      · have hk : headerKey ('[' :: key ++ [']']) = some key := by
          rw [headerKey, List.cons_append, List.tail_cons, List.getLast?_concat]
          simp only [List.dropLast_concat]
          rfl
        rw [if_pos (by rfl), hk]
        exact ih _ _
      · obtain ⟨p, hp⟩ := splitEq_found h2
        rw [if_neg h1, hp]
        exact ih _ _
  simp only [updateDisk, deserialize, hl, key]

example : updateDisk (some "[a]\nen = \"x\"\noops".toList) [("b".toList, "\"y\"".toList)] = .error :=
  broken_file_kept _ _ ["[a]".toList, "en = \"x\"".toList] "oops".toList [] (by decide +kernel)
    (by
      intro l hl
      simp only [List.mem_cons, List.not_mem_nil, or_false] at hl
      rcases hl with rfl | rfl
      · exact .inl ⟨"a".toList, by decide +kernel⟩
      · exact .inr ⟨by decide +kernel, by decide +kernel⟩)
    (by decide +kernel) (by decide +kernel)

/-! ## Loading -/

theorem mapM_lookup {β γ : Type} {f : Str × β → Option (Str × γ)} {g : β → Option γ}
    (hf : ∀ e, f e = (g e.2).map fun v => (e.1, v)) {m : List (Str × β)} : ∀ {m' : List (Str × γ)}, m.mapM f = some m' →
    ∀ k, m'.lookup k = (m.lookup k).bind g := by
  induction m with
  | nil => intro m' h k; cases h; rfl
  | cons e m ih =>
    intro m' h k
    obtain ⟨a, b⟩ := e
    rw [List.mapM_cons] at h
    have hfe : f (a, b) = (g b).map fun v => (a, v) := hf _
    cases hg : g b with
    | none => rw [hfe, hg] at h; cases h
    | some v =>
      rw [hfe, hg] at h
      cases hm : m.mapM f with
      | none => rw [hm] at h; cases h
      | some ms =>
        rw [hm] at h
        cases h
        rw [List.lookup_cons, List.lookup_cons]
        by_cases hk : k = a
        · subst hk; simp [hg]
        · have : (k == a) = false := by simpa using hk
          rw [this]
          exact ih hm k

theorem mapM_none {α γ : Type} {f : α → Option γ} {m : List α} {e : α} (he : e ∈ m) (h : f e = none) : m.mapM f = none := by
  induction m with
  | nil => cases he
  | cons x m ih =>
    rw [List.mapM_cons]
    rcases List.mem_cons.mp he with rfl | he
    · rw [h]; rfl
    · rw [ih he]
      cases f x <;> rfl

theorem mapM_some {α γ : Type} {f : α → Option γ} {m : List α} (h : ∀ e ∈ m, f e ≠ none) : ∃ m', m.mapM f = some m' := by
  induction m with
  | nil => exact ⟨[], rfl⟩
  | cons x m ih =>
    obtain ⟨m', hm⟩ := ih fun e he => h e (List.mem_cons_of_mem _ he)
    cases hx : f x with
    | none => exact (h x (List.mem_cons_self ..) hx).elim
    | some y => exact ⟨y :: m', by rw [List.mapM_cons, hx, hm]; rfl⟩

/-- **C87.** The server takes a message in quotes for what the JSON string means, and any other as it is. -/
theorem loaded (json : Str → Option Str) (text : Str) (m m' : Map2) (h : deserialize text false = .ok m)
    (hl : load json text = .ok m') (lang key : Str) :
    translation m' lang key = (translation m lang key).bind fun w => if w.head? = some '"' then json w else some w := by
  rw [load, h] at hl
  simp only at hl
  split at hl
  · cases hl
  · rename_i m2 hm
    cases hl
    have h1 := mapM_lookup (g := fun d : List (Str × Str) =>
      d.mapM fun f => if f.2.head? = some '"' then (json f.2).map fun v => (f.1, v) else some f) (fun e => rfl) hm lang
    rw [translation, translation, h1]
    cases hd : m.lookup lang with
    | none => rfl
    | some d =>
      simp only [Option.bind_some]
      cases hd' : d.mapM fun f => if f.2.head? = some '"' then (json f.2).map fun v => (f.1, v) else some f with
      | none =>
        exfalso
        have := mapM_none (lookup_mem' hd) (f := fun e : Str × List (Str × Str) =>
          (e.2.mapM fun f => if f.2.head? = some '"' then (json f.2).map fun v => (f.1, v) else some f).map fun d => (e.1, d))
          (by simp only [hd']; rfl)
        rw [this] at hm
        cases hm
      | some d' =>
        simp only [Option.bind_some]
        exact mapM_lookup (g := fun w : Str => if w.head? = some '"' then json w else some w)
          (fun e => by split <;> rfl) hd' key

/-- **C87 is violated** if some message in quotes is not a JSON string, as one with a Rust escape like `\u{2019}`: the server
panics when it starts. -/
theorem load_panics (json : Str → Option Str) (text : Str) (m : Map2) (h : deserialize text false = .ok m) (lang key w : Str)
    (ht : translation m lang key = some w) (hq : w.head? = some '"') (hj : json w = none) : load json text = .panic := by
  rw [load, h]
  simp only
  rw [translation] at ht
  cases hd : m.lookup lang with
  | none => rw [hd] at ht; cases ht
  | some d =>
    rw [hd] at ht
    have h1 := mapM_none (lookup_mem' ht) (f := fun f : Str × Str =>
      if f.2.head? = some '"' then (json f.2).map fun v => (f.1, v) else some f) (by rw [if_pos hq, hj]; rfl)
    have := mapM_none (lookup_mem' hd) (f := fun e : Str × List (Str × Str) =>
          (e.2.mapM fun f => if f.2.head? = some '"' then (json f.2).map fun v => (f.1, v) else some f).map fun d => (e.1, d))
          (by simp only [h1]; rfl)
    rw [this]

/-! ## Collecting -/

theorem parseChar_iff {ch : Char} (hch : isWhitespace ch = false) {s r : Str} :
    parseChar ch s = some r ↔ ∃ a, Blank a ∧ s = a ++ ch :: r := by
  rw [parseChar]
  constructor
  · intro h
    obtain ⟨a, ha, e⟩ := exists_dropWhile s
    cases hd : s.dropWhile isWhitespace with
    | nil => rw [hd] at h; cases h
    | cons c cs =>
      rw [hd] at h e
      simp only at h
      split at h
      · rename_i hc
        cases h
        exact ⟨a, ha, by rw [← hc]; exact e⟩
      · cases h
  · rintro ⟨a, ha, rfl⟩
    rw [dropWhile_blank ha (by intro c hc; simp at hc; rw [← hc]; exact hch)]
    simp

theorem scanStr_iff (s : Str) : ∀ x r,
    (scanStr false s = some (x, r) ↔ Inside x ∧ s = x ++ '"' :: r) ∧
    (scanStr true s = some (x, r) ↔ ∃ c y, x = c :: y ∧ Inside y ∧ s = x ++ '"' :: r) := by
  induction s with
  | nil =>
    intro x r
    constructor
    · constructor
      · intro h; cases h
      · rintro ⟨_, h⟩; simp at h
    · constructor
      · intro h; cases h
      · rintro ⟨c, y, _, _, h⟩; simp at h
  | cons c s ih =>
    intro x r
    constructor
    · rw [scanStr]
      by_cases hb : c = '\\'
      · subst hb
        rw [if_pos rfl]
        constructor
        · intro h
          cases hs : scanStr true s with
          | none => rw [hs] at h; cases h
          | some p =>
            obtain ⟨x', r'⟩ := p
            rw [hs] at h
            cases h
            obtain ⟨d, y, rfl, hy, e⟩ := (ih x' r').2.mp hs
            exact ⟨.escape hy, by rw [e]; rfl⟩
        · rintro ⟨hi, e⟩
          cases hi with
          | nil => exact absurd (List.cons.inj e).1 (by decide)
          | char h1 _ _ => exact (h1 (List.cons.inj e).1.symm).elim
          | escape hy =>
            have e' := (List.cons.inj e).2
            rw [(ih _ r).2.mpr ⟨_, _, rfl, hy, e'⟩]
            rfl
      · rw [if_neg hb]
        by_cases hq : c = '"'
        · subst hq
          rw [if_pos rfl]
          constructor
          · intro h; cases h; exact ⟨.nil, rfl⟩
          · rintro ⟨hi, e⟩
            cases hi with
            | nil => simp at e; rw [e]
            | char _ h2 _ => exact (h2 (List.cons.inj e).1.symm).elim
            | escape _ => exact absurd (List.cons.inj e).1 (by decide)
        · rw [if_neg hq]
          constructor
          · intro h
            cases hs : scanStr false s with
            | none => rw [hs] at h; cases h
            | some p =>
              obtain ⟨x', r'⟩ := p
              rw [hs] at h
              cases h
              obtain ⟨hy, e⟩ := (ih x' r').1.mp hs
              exact ⟨.char hb hq hy, by rw [e]; rfl⟩
          · rintro ⟨hi, e⟩
            cases hi with
            | nil => exact (hq (List.cons.inj e).1).elim
            | char _ _ hy =>
              have e' := (List.cons.inj e)
              rw [(ih _ r).1.mpr ⟨hy, e'.2⟩, e'.1]
              rfl
            | escape _ => exact (hb (List.cons.inj e).1).elim
    · rw [scanStr]
      constructor
      · intro h
        cases hs : scanStr false s with
        | none => rw [hs] at h; cases h
        | some p =>
          obtain ⟨x', r'⟩ := p
          rw [hs] at h
          cases h
          obtain ⟨hy, e⟩ := (ih x' r').1.mp hs
          exact ⟨c, x', rfl, hy, by rw [e]; rfl⟩
      · rintro ⟨d, y, rfl, hy, e⟩
        have e' := List.cons.inj e
        rw [(ih y r).1.mpr ⟨hy, e'.2⟩, e'.1]
        rfl

theorem parseStr_iff {s x r : Str} : parseStr s = some (x, r) ↔ ∃ a, Blank a ∧ Inside x ∧ s = a ++ '"' :: x ++ '"' :: r := by
  rw [parseStr]
  constructor
  · intro h
    cases hc : parseChar '"' s with
    | none => rw [hc] at h; cases h
    | some t =>
      rw [hc] at h
      obtain ⟨a, ha, rfl⟩ := (parseChar_iff (by decide)).mp hc
      obtain ⟨hi, rfl⟩ := (scanStr_iff t x r).1.mp h
      exact ⟨a, ha, hi, by simp⟩
  · rintro ⟨a, ha, hi, rfl⟩
    have : a ++ '"' :: x ++ '"' :: r = a ++ '"' :: (x ++ '"' :: r) := by simp
    rw [this, (parseChar_iff (by decide)).mpr ⟨a, ha, rfl⟩]
    exact (scanStr_iff _ x r).1.mpr ⟨hi, rfl⟩

theorem parseArgs_iff {s k v : Str} : parseArgs s = some (k, v) ↔
    ∃ a b c d msg rest, Blank a ∧ Blank b ∧ Blank c ∧ Blank d ∧ Inside k ∧ Inside msg ∧ v = '"' :: msg ++ ['"'] ∧
      s = a ++ '(' :: b ++ '"' :: k ++ '"' :: c ++ ',' :: d ++ '"' :: msg ++ '"' :: rest := by
  rw [parseArgs]
  constructor
  · intro h
    cases h1 : parseChar '(' s with
    | none => rw [h1] at h; cases h
    | some s1 =>
      rw [h1] at h
      replace h : ((parseStr s1).bind fun p => (parseChar ',' p.2).bind fun s3 => (parseStr s3).bind fun q =>
        some (p.1, '"' :: q.1 ++ ['"'])) = some (k, v) := h
      cases h2 : parseStr s1 with
      | none => rw [h2] at h; cases h
      | some p =>
        obtain ⟨k', s2⟩ := p
        rw [h2, Option.bind_some] at h
        cases h3 : parseChar ',' s2 with
        | none => rw [h3] at h; cases h
        | some s3 =>
          rw [h3, Option.bind_some] at h
          cases h4 : parseStr s3 with
          | none => rw [h4] at h; cases h
          | some q =>
            obtain ⟨msg, rest⟩ := q
            rw [h4] at h
            cases h
            obtain ⟨a, ha, rfl⟩ := (parseChar_iff (by decide)).mp h1
            obtain ⟨b, hb, hk, rfl⟩ := parseStr_iff.mp h2
            obtain ⟨c, hc, rfl⟩ := (parseChar_iff (by decide)).mp h3
            obtain ⟨d, hd, hm, rfl⟩ := parseStr_iff.mp h4
            exact ⟨a, b, c, d, msg, rest, ha, hb, hc, hd, hk, hm, rfl, by simp⟩
  · rintro ⟨a, b, c, d, msg, rest, ha, hb, hc, hd, hk, hm, rfl, rfl⟩
    have h1 : parseChar '(' (a ++ '(' :: b ++ '"' :: k ++ '"' :: c ++ ',' :: d ++ '"' :: msg ++ '"' :: rest) =
        some (b ++ '"' :: k ++ '"' :: (c ++ ',' :: d ++ '"' :: msg ++ '"' :: rest)) :=
      (parseChar_iff (by decide)).mpr ⟨a, ha, by simp⟩
    have h2 : parseStr (b ++ '"' :: k ++ '"' :: (c ++ ',' :: d ++ '"' :: msg ++ '"' :: rest)) =
        some (k, c ++ ',' :: d ++ '"' :: msg ++ '"' :: rest) := parseStr_iff.mpr ⟨b, hb, hk, by simp⟩
    have h3 : parseChar ',' (c ++ ',' :: d ++ '"' :: msg ++ '"' :: rest) = some (d ++ '"' :: msg ++ '"' :: rest) :=
      (parseChar_iff (by decide)).mpr ⟨c, hc, by simp⟩
    have h4 : parseStr (d ++ '"' :: msg ++ '"' :: rest) = some (msg, rest) := parseStr_iff.mpr ⟨d, hd, hm, rfl⟩
    rw [h1]
    show ((parseStr _).bind fun p => (parseChar ',' p.2).bind fun s3 => (parseStr s3).bind fun q =>
        some (p.1, '"' :: q.1 ++ ['"'])) = _
    rw [h2, Option.bind_some, h3, Option.bind_some, h4]
    rfl

theorem stripPrefix_iff {p s r : Str} : stripPrefix p s = some r ↔ s = p ++ r := by
  rw [stripPrefix]
  constructor
  · intro h
    split at h
    · rename_i hp
      cases h
      obtain ⟨t, rfl⟩ := List.isPrefixOf_iff_prefix.mp hp
      simp
    · cases h
  · rintro rfl
    rw [if_pos (List.isPrefixOf_iff_prefix.mpr (List.prefix_append ..))]
    simp

theorem callAt_iff {s k v : Str} : callAt s = some (k, v) ↔ ∃ msg, v = '"' :: msg ++ ['"'] ∧ IsCall s k msg := by
  have e1 : "tinymist_l10n::t!".toList = fnName ++ ['t', '!'] := by decide +kernel
  have e2 : "tinymist_l10n::bail!".toList = fnName ++ ['b', 'a', 'i', 'l', '!'] := by decide +kernel
  have expand : callAt s = (stripPrefix fnName s).bind fun x =>
      ((stripPrefix ['t', '!'] x).or (stripPrefix ['b', 'a', 'i', 'l', '!'] x)).bind parseArgs := rfl
  rw [expand]
  constructor
  · intro h
    cases h1 : stripPrefix fnName s with
    | none => rw [h1] at h; cases h
    | some x =>
      rw [h1, Option.bind_some] at h
      cases h2 : (stripPrefix ['t', '!'] x).or (stripPrefix ['b', 'a', 'i', 'l', '!'] x) with
      | none => rw [h2] at h; cases h
      | some y =>
        rw [h2, Option.bind_some] at h
        obtain ⟨a, b, c, d, msg, rest, ha, hb, hc, hd, hk, hm, rfl, rfl⟩ := parseArgs_iff.mp h
        refine ⟨msg, rfl, ?_⟩
        have hs := stripPrefix_iff.mp h1
        cases h3 : stripPrefix ['t', '!'] x with
        | some z =>
          rw [h3] at h2
          cases h2
          have := stripPrefix_iff.mp h3
          exact ⟨_, a, b, c, d, rest, .inl rfl, ha, hb, hc, hd, hk, hm, by rw [hs, this, e1]; simp⟩
        | none =>
          rw [h3, Option.none_or] at h2
          have := stripPrefix_iff.mp h2
          exact ⟨_, a, b, c, d, rest, .inr rfl, ha, hb, hc, hd, hk, hm, by rw [hs, this, e2]; simp⟩
  · rintro ⟨msg, rfl, mac, a, b, c, d, rest, hmac, ha, hb, hc, hd, hk, hm, rfl⟩
    have hargs := parseArgs_iff.mpr ⟨a, b, c, d, msg, rest, ha, hb, hc, hd, hk, hm, rfl, rfl⟩
    rcases hmac with rfl | rfl
    · rw [e1]
      have : fnName ++ ['t', '!'] ++ a ++ '(' :: b ++ '"' :: k ++ '"' :: c ++ ',' :: d ++ '"' :: msg ++ '"' :: rest =
          fnName ++ (['t', '!'] ++ (a ++ '(' :: b ++ '"' :: k ++ '"' :: c ++ ',' :: d ++ '"' :: msg ++ '"' :: rest)) := by simp
      rw [this, stripPrefix_iff.mpr rfl, Option.bind_some, stripPrefix_iff.mpr rfl, Option.some_or, Option.bind_some]
      exact hargs
    · rw [e2]
      have : fnName ++ ['b', 'a', 'i', 'l', '!'] ++ a ++ '(' :: b ++ '"' :: k ++ '"' :: c ++ ',' :: d ++ '"' :: msg ++ '"' :: rest =
          fnName ++ (['b', 'a', 'i', 'l', '!'] ++
            (a ++ '(' :: b ++ '"' :: k ++ '"' :: c ++ ',' :: d ++ '"' :: msg ++ '"' :: rest)) := by simp
      rw [this, stripPrefix_iff.mpr rfl, Option.bind_some]
      have hno : ∀ t : Str, stripPrefix ['t', '!'] (['b', 'a', 'i', 'l', '!'] ++ t) = none := by
        intro t
        cases h : stripPrefix ['t', '!'] (['b', 'a', 'i', 'l', '!'] ++ t) with
        | none => rfl
        | some r =>
          have := stripPrefix_iff.mp h
          simp at this
      rw [hno, Option.none_or, stripPrefix_iff.mpr rfl, Option.bind_some]
      exact hargs

/-- **C87.** Exactly the messages in the source are collected: each place at which one of the two macros is called with two
string literals, however they are spaced. -/
theorem collected (content k v : Str) :
    (k, v) ∈ calls content ↔ ∃ before s msg, content = before ++ s ∧ v = '"' :: msg ++ ['"'] ∧ IsCall s k msg := by
  induction content with
  | nil =>
    constructor
    · intro h; cases h
    · rintro ⟨before, s, msg, e, _, mac, a, b, c, d, rest, hm, _, _, _, _, _, _, rfl⟩
      exfalso
      have := congrArg List.length e
      simp at this
  | cons x cs ih =>
    rw [calls, List.mem_append, ih, Option.mem_toList, callAt_iff]
    constructor
    · rintro (⟨msg, hv, hc⟩ | ⟨before, s, msg, rfl, hv, hc⟩)
      · exact ⟨[], _, msg, rfl, hv, hc⟩
      · exact ⟨x :: before, s, msg, rfl, hv, hc⟩
    · rintro ⟨before, s, msg, e, hv, hc⟩
      cases before with
      | nil => exact .inl ⟨msg, hv, by rw [e]; exact hc⟩
      | cons y before =>
        cases e
        exact .inr ⟨before, s, msg, rfl, hv, hc⟩

example : calls "x; tinymist_l10n::t!( \"a.b\",\n \"say \\\"{x}\\\"\", x = 1)".toList =
    [("a.b".toList, "\"say \\\"{x}\\\"\"".toList)] := by decide +kernel

end Tinymist.L10n
