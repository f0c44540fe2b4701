import Verif.Lemmas.L10n
import Verif.Lemmas.Util
/-! # The file of translations: lemmas -/
namespace Tinymist.L10n
open Pages

/-! ## Maps -/

theorem lookup_put {β : Type} (k : Str) (v : β) (m : List (Str × β)) (k' : Str) :
    (put k v m).lookup k' = if k' = k then some v else m.lookup k' := by
  induction m with
  | nil =>
    rw [put, List.lookup_cons]
    by_cases h : k' = k
    · subst h; simp
    · have : (k' == k) = false := by simpa using h
      rw [this, if_neg h]
  | cons e m ih =>
    obtain ⟨a, b⟩ := e
    rw [put]
    by_cases h : k' = k
    · subst h
      by_cases ha : a = k'
      · simp [ha]
      · have : (k' == a) = false := by simpa using fun e => ha e.symm
        rw [if_neg ha, List.lookup_cons, this]
        simpa using ih
    · by_cases ha : a = k
      · have h1 : (k' == k) = false := by simpa using h
        have h2 : (k' == a) = false := by rw [ha]; exact h1
        rw [if_pos ha, List.lookup_cons, List.lookup_cons, h1, h2, if_neg h]
      · rw [if_neg ha, List.lookup_cons, List.lookup_cons, ih, if_neg h, if_neg h]

theorem keys_put {β : Type} (k : Str) (v : β) (m : List (Str × β)) :
    ∀ x, x ∈ (put k v m).map (·.1) ↔ x = k ∨ x ∈ m.map (·.1) := by
  induction m with
  | nil => intro x; simp [put]
  | cons e m ih =>
    intro x
    rw [put]
    by_cases ha : e.1 = k
    · rw [if_pos ha]; simp only [List.map_cons, List.mem_cons, ha]
      constructor
      · rintro (h | h)
        · exact .inl h
        · exact .inr (.inr h)
      · rintro (h | h | h)
        · exact .inl h
        · exact .inl h
        · exact .inr h
    · rw [if_neg ha]
      simp only [List.map_cons, List.mem_cons, ih x]
      constructor
      · rintro (h | h | h)
        · exact .inr (.inl h)
        · exact .inl h
        · exact .inr (.inr h)
      · rintro (h | h | h)
        · exact .inr (.inl h)
        · exact .inl h
        · exact .inr (.inr h)

theorem nodup_put {β : Type} (k : Str) (v : β) {m : List (Str × β)} (h : (m.map (·.1)).Nodup) :
    ((put k v m).map (·.1)).Nodup := by
  induction m with
  | nil => simp [put]
  | cons e m ih =>
    simp only [List.map_cons, List.nodup_cons] at h
    rw [put]
    by_cases ha : e.1 = k
    · rw [if_pos ha]; simp only [List.map_cons, List.nodup_cons]; exact ⟨ha ▸ h.1, h.2⟩
    · rw [if_neg ha]; simp only [List.map_cons, List.nodup_cons]
      refine ⟨fun hm => ?_, ih h.2⟩
      rcases (keys_put k v m _).mp hm with hm | hm
      · exact ha hm
      · exact h.1 hm

theorem mem_put {β : Type} {k : Str} {v : β} {m : List (Str × β)} {e : Str × β} (h : e ∈ put k v m) : e = (k, v) ∨ e ∈ m := by
  induction m with
  | nil => rw [put] at h; exact .inl (by simpa using h)
  | cons f m ih =>
    rw [put] at h
    split at h
    · rcases List.mem_cons.mp h with h | h
      · exact .inl h
      · exact .inr (List.mem_cons_of_mem _ h)
    · rcases List.mem_cons.mp h with h | h
      · exact .inr (by rw [h]; exact List.mem_cons_self ..)
      · rcases ih h with h | h
        · exact .inl h
        · exact .inr (List.mem_cons_of_mem _ h)

theorem lookup_mem' {β : Type} {l : List (Str × β)} {k : Str} {v : β} (h : l.lookup k = some v) : (k, v) ∈ l := by
  induction l with
  | nil => cases h
  | cons e l ih =>
    obtain ⟨k', v'⟩ := e
    rw [List.lookup_cons] at h
    by_cases hk : k = k'
    · subst hk; simp at h; simp [h]
    · have : (k == k') = false := by simpa using hk
      rw [this] at h
      exact List.mem_cons_of_mem _ (ih h)

theorem lookup_of_mem {β : Type} {l : List (Str × β)} {k : Str} {v : β} (hn : (l.map (·.1)).Nodup) (h : (k, v) ∈ l) :
    l.lookup k = some v := by
  induction l with
  | nil => cases h
  | cons e l ih =>
    obtain ⟨k', v'⟩ := e
    simp only [List.map_cons, List.nodup_cons] at hn
    rw [List.lookup_cons]
    rcases List.mem_cons.mp h with h' | h'
    · cases h'; simp
    · have hk : (k == k') = false := by
        simp only [beq_eq_false_iff_ne]
        rintro rfl
        exact hn.1 (List.mem_map.mpr ⟨_, h', rfl⟩)
      rw [hk]
      exact ih hn.2 h'

/-- A map: no key twice, on both levels. -/
def Proper (m : Map2) : Prop := (m.map (·.1)).Nodup ∧ ∀ e ∈ m, (e.2.map (·.1)).Nodup

theorem translation_put2 (m : Map2) (a b v a' b' : Str) :
    translation (put2 m a b v) a' b' = if a' = a ∧ b' = b then some v else translation m a' b' := by
  rw [translation, put2, lookup_put]
  by_cases ha : a' = a
  · subst ha
    rw [if_pos rfl]
    simp only [Option.bind_some, lookup_put, true_and]
    by_cases hb : b' = b
    · rw [if_pos hb, if_pos hb]
    · rw [if_neg hb, if_neg hb, translation]
      cases m.lookup a' <;> rfl
  · rw [if_neg ha, if_neg (fun h => ha h.1)]
    rfl

theorem proper_put2 {m : Map2} (h : Proper m) (a b v : Str) : Proper (put2 m a b v) := by
  refine ⟨nodup_put _ _ h.1, ?_⟩
  intro e he
  rcases mem_put he with rfl | he
  · apply nodup_put
    cases hl : m.lookup a with
    | none => simp
    | some d => exact h.2 _ (lookup_mem' hl)
  · exact h.2 e he

theorem translation_iff {m : Map2} (h : Proper m) {k l v : Str} :
    translation m k l = some v ↔ ∃ d, (k, d) ∈ m ∧ (l, v) ∈ d := by
  rw [translation]
  constructor
  · intro ht
    cases hl : m.lookup k with
    | none => rw [hl] at ht; cases ht
    | some d => rw [hl] at ht; exact ⟨d, lookup_mem' hl, lookup_mem' ht⟩
  · rintro ⟨d, h1, h2⟩
    rw [lookup_of_mem h.1 h1]
    exact lookup_of_mem (h.2 _ h1) h2

/-! ## Reading -/

/-- Nothing to trim at the ends. -/
def Tight (s : Str) : Prop :=
  (∀ c, s.head? = some c → isWhitespace c = false) ∧ ∀ c, s.getLast? = some c → isWhitespace c = false

theorem dropWhile_head (s : Str) : ∀ c, (s.dropWhile isWhitespace).head? = some c → isWhitespace c = false := by
  induction s with
  | nil => intro c h; cases h
  | cons d s ih =>
    intro c h
    rw [List.dropWhile_cons] at h
    split at h
    · exact ih c h
    · rename_i hd
      simp at h
      subst h
      simpa using hd

theorem trim_tight (s : Str) : Tight (trim s) := by
  constructor
  · intro c hc
    have hs : ∃ b, s.dropWhile isWhitespace = trim s ++ b := by
      refine ⟨((s.dropWhile isWhitespace).reverse.takeWhile isWhitespace).reverse, ?_⟩
      rw [trim, ← List.reverse_append, List.takeWhile_append_dropWhile, List.reverse_reverse]
    obtain ⟨b, hb⟩ := hs
    apply dropWhile_head s c
    rw [hb]
    cases ht : trim s with
    | nil => rw [ht] at hc; cases hc
    | cons d t => rw [ht] at hc; simpa using hc
  · intro c hc
    rw [trim, List.getLast?_reverse] at hc
    exact dropWhile_head _ c hc

theorem dropWhile_of_head {s : Str} (h : ∀ c, s.head? = some c → isWhitespace c = false) : s.dropWhile isWhitespace = s := by
  cases s with
  | nil => rfl
  | cons c s => rw [List.dropWhile_cons, h c rfl]; rfl

theorem trim_of_tight {s : Str} (h : Tight s) : trim s = s := by
  rw [trim, dropWhile_of_head h.1, dropWhile_of_head, List.reverse_reverse]
  intro c hc
  rw [List.head?_reverse] at hc
  exact h.2 c hc

theorem trim_sub {s : Str} {c : Char} (h : c ∈ trim s) : c ∈ s := by
  obtain ⟨a, b, _, _, e⟩ := trim_spec s
  rw [e]
  simp [h]

theorem splitEq_eq {a : Str} (h : '=' ∉ a) (b : Str) : splitEq (a ++ '=' :: b) = some (a, b) := by
  induction a with
  | nil => rfl
  | cons c a ih =>
    rw [List.cons_append, splitEq, if_neg (fun e => h (by simp [e])), ih fun hc => h (List.mem_cons_of_mem _ hc)]
    rfl

theorem splitEq_some {s a b : Str} (h : splitEq s = some (a, b)) : s = a ++ '=' :: b ∧ '=' ∉ a := by
  induction s generalizing a with
  | nil => cases h
  | cons c s ih =>
    rw [splitEq] at h
    split at h
    · rename_i hc; cases h; exact ⟨by rw [hc]; rfl, by simp⟩
    · rename_i hc
      cases hs : splitEq s with
      | none => rw [hs] at h; cases h
      | some p =>
        obtain ⟨a', b'⟩ := p
        rw [hs] at h
        cases h
        obtain ⟨e, hn⟩ := ih hs
        refine ⟨by rw [e]; rfl, ?_⟩
        intro hm
        rcases List.mem_cons.mp hm with hm | hm
        · exact hc hm.symm
        · exact hn hm

/-- Names of languages that can be written to the file and read back. -/
def GoodLang (l : Str) : Prop := Tight l ∧ '=' ∉ l ∧ '\n' ∉ l ∧ l.head? ≠ some '#' ∧ l.head? ≠ some '['

/-- What a file read in has: all of it can be written. -/
def Good (m : Map2) : Prop :=
  ∀ k l v, translation m k l = some v → '\n' ∉ k ∧ GoodLang l ∧ Tight v ∧ '\n' ∉ v

theorem good_put2 {m : Map2} (h : Good m) {k l v : Str} (hk : '\n' ∉ k) (hl : GoodLang l) (hv : Tight v) (hv' : '\n' ∉ v) :
    Good (put2 m k l v) := by
  intro k' l' v' ht
  rw [translation_put2] at ht
  split at ht
  · rename_i he
    cases ht
    rw [he.1, he.2]
    exact ⟨hk, hl, hv, hv'⟩
  · exact h k' l' v' ht

theorem headerKey_sub {line k : Str} (h : headerKey line = some k) : ∀ c ∈ k, c ∈ line := by
  rw [headerKey] at h
  split at h
  · cases h
  · split at h
    · cases h
      intro c hc
      exact List.mem_of_mem_tail ((List.dropLast_subset _) hc)
    · cases h

/-- A line that is looked at: trimmed, without line ends, not a comment and not empty. -/
def GoodLine (l : Str) : Prop := Tight l ∧ '\n' ∉ l ∧ l.head? ≠ some '#' ∧ l ≠ []

theorem mem_split {sep : Char} {s : Str} : ∀ {p}, p ∈ split sep s → sep ∉ p := by
  induction s with
  | nil => intro p h; rw [split] at h; simp at h; subst h; simp
  | cons c s ih =>
    intro p h
    rw [split] at h
    split at h
    · rcases List.mem_cons.mp h with rfl | h
      · simp
      · exact ih h
    · rename_i hc
      cases hs : split sep s with
      | nil => exact (split_ne_nil sep s hs).elim
      | cons q qs =>
        rw [hs] at h
        simp only at h
        rcases List.mem_cons.mp h with rfl | h
        · intro hm
          rcases List.mem_cons.mp hm with hm | hm
          · exact hc hm.symm
          · exact ih (by rw [hs]; exact List.mem_cons_self ..) hm
        · exact ih (by rw [hs]; exact List.mem_cons_of_mem _ h)

theorem linesOf_good (input : Str) : ∀ l ∈ linesOf input, GoodLine l := by
  intro l hl
  rw [linesOf, List.mem_filter] at hl
  obtain ⟨h1, h2⟩ := hl
  obtain ⟨p, hp, rfl⟩ := List.mem_map.mp h1
  simp only [Bool.and_eq_true, Bool.not_eq_true', decide_eq_false_iff_not, List.isEmpty_eq_false_iff] at h2
  exact ⟨trim_tight p, fun h => mem_split hp (trim_sub h), h2.1, h2.2⟩

theorem head_append {a b : Str} (h : a ≠ []) : (a ++ b).head? = a.head? := by
  cases a with
  | nil => exact (h rfl).elim
  | cons c a => rfl

theorem trim_head {a : Str} (h : ∀ c, a.head? = some c → isWhitespace c = false) (hn : trim a ≠ []) :
    (trim a).head? = a.head? := by
  obtain ⟨b, hb⟩ : ∃ b, a.dropWhile isWhitespace = trim a ++ b := by
    refine ⟨((a.dropWhile isWhitespace).reverse.takeWhile isWhitespace).reverse, ?_⟩
    rw [trim, ← List.reverse_append, List.takeWhile_append_dropWhile, List.reverse_reverse]
  rw [dropWhile_of_head h] at hb
  have : a.head? = (trim a ++ b).head? := congrArg List.head? hb
  rw [this, head_append hn]

/-- The two parts of a line with a translation can be written. -/
theorem entry_good {line a b : Str} (hl : GoodLine line) (hb : line.head? ≠ some '[') (h : splitEq line = some (a, b)) :
    GoodLang (trim a) ∧ Tight (trim b) ∧ '\n' ∉ trim b := by
  obtain ⟨e, hn⟩ := splitEq_some h
  have hnl : '\n' ∉ a ∧ '\n' ∉ b := by
    have := hl.2.1
    rw [e] at this
    constructor
    · exact fun h => this (by simp [h])
    · exact fun h => this (by simp [h])
  have hh : ∀ x, (trim a).head? = some x → line.head? = some x := by
    intro x hx
    have hne : trim a ≠ [] := by intro h; rw [h] at hx; cases hx
    have ha : a ≠ [] := by rintro rfl; exact hne rfl
    rw [e, head_append ha]
    rw [← hx]
    symm
    apply trim_head _ hne
    intro c hc
    apply hl.1.1
    rw [e, head_append ha]
    exact hc
  refine ⟨⟨trim_tight a, fun h => hn (trim_sub h), fun h => hnl.1 (trim_sub h), ?_, ?_⟩, trim_tight b, fun h => hnl.2 (trim_sub h)⟩
  · exact fun h => hl.2.2.1 (hh _ h)
  · exact fun h => hb (hh _ h)

theorem readLines_good {ls : List Str} : ∀ {key : Str} {m m' : Map2}, (∀ l ∈ ls, GoodLine l) → '\n' ∉ key → Good m → Proper m →
    readLines true key m ls = .ok m' → Good m' ∧ Proper m' := by
  induction ls with
  | nil => intro key m m' _ _ hg hp h; cases h; exact ⟨hg, hp⟩
  | cons line ls ih =>
    intro key m m' hl hk hg hp h
    have hline := hl line (List.mem_cons_self ..)
    have hl' := fun l h => hl l (List.mem_cons_of_mem _ h)
    rw [readLines] at h
    split at h
    · cases hk' : headerKey line with
      | none => rw [hk'] at h; cases h
      | some k =>
        rw [hk'] at h
        exact ih hl' (fun hc => hline.2.1 (headerKey_sub hk' _ hc)) hg hp h
    · rename_i hb
      cases hs : splitEq line with
      | none => rw [hs] at h; cases h
      | some p =>
        obtain ⟨a, b⟩ := p
        rw [hs] at h
        simp only [if_true] at h
        obtain ⟨h1, h2, h3⟩ := entry_good hline hb hs
        exact ih hl' hk (good_put2 hg hk h1 h2 h3) (proper_put2 hp _ _ _) h

theorem deserialize_good {input : Str} {m : Map2} (h : deserialize input true = .ok m) : Good m ∧ Proper m :=
  readLines_good (linesOf_good input) (by simp) (by intro k l v h; cases h) ⟨by simp, by intro e he; cases he⟩ h

/-! ## Writing -/

/-- The text of a list of lines. -/
def unlines (ls : List Str) : Str := ls.flatMap fun l => l ++ ['\n']

theorem split_unlines {ls : List Str} (h : ∀ l ∈ ls, '\n' ∉ l) : split '\n' (unlines ls) = ls ++ [[]] := by
  induction ls with
  | nil => rfl
  | cons l ls ih =>
    have : unlines (l :: ls) = l ++ '\n' :: unlines ls := by simp [unlines]
    rw [this, split_append (h l (List.mem_cons_self ..)), ih fun l h' => h l (List.mem_cons_of_mem _ h')]
    rfl

/-- The lines of one key. -/
def sectionLines (k : Str) (es : List (Str × Str)) : List Str := [] :: ('[' :: k ++ [']']) :: es.map entryLine

/-- The entries of one key in the order in which they are written. -/
def ordered (d : List (Str × Str)) : List (Str × Str) :=
  (d.lookup en).toList.map (fun v => (en, v)) ++ sortKeys (d.filter fun f => decide (f.1 ≠ en))

theorem section_eq {k : Str} {d : List (Str × Str)} {v : Str} (h : d.lookup en = some v) :
    section_ (k, d) = some (unlines (sectionLines k (ordered d))) := by
  simp only [section_, h, ordered, sectionLines, unlines, Option.toList_some, List.map_cons, List.map_nil, List.flatMap_cons,
    List.map_append, List.flatMap_append, List.flatMap_map, List.flatMap_nil]
  congr 1
  simp [List.append_assoc]

theorem sortKeys_perm {β : Type} (m : List (Str × β)) : (sortKeys m).Perm m := List.mergeSort_perm ..

theorem mem_ordered {d : List (Str × Str)} (hn : (d.map (·.1)).Nodup) (e : Str × Str) : e ∈ ordered d ↔ e ∈ d := by
  rw [ordered, List.mem_append, (sortKeys_perm _).mem_iff, List.mem_filter]
  constructor
  · rintro (h | h)
    · simp only [List.mem_map, Option.mem_toList] at h
      obtain ⟨v, hv, rfl⟩ := h
      exact lookup_mem' hv
    · exact h.1
  · intro h
    by_cases he : e.1 = en
    · refine .inl ?_
      simp only [List.mem_map, Option.mem_toList]
      exact ⟨e.2, lookup_of_mem hn (by rw [← he]; exact h), by rw [← he]⟩
    · exact .inr ⟨h, by simpa using he⟩

theorem nodup_ordered {d : List (Str × Str)} (hn : (d.map (·.1)).Nodup) : ((ordered d).map (·.1)).Nodup := by
  rw [ordered, List.map_append, List.nodup_append]
  refine ⟨?_, ?_, ?_⟩
  · cases d.lookup en <;> simp
  · rw [((sortKeys_perm _).map _).nodup_iff]
    exact ((List.filter_sublist).map _).nodup hn
  · intro a ha b hb
    have h1 : a = en := by
      cases hl : d.lookup en with
      | none => rw [hl] at ha; simp at ha
      | some v => rw [hl] at ha; simpa using ha
    have h2 : b ≠ en := by
      obtain ⟨e, he, rfl⟩ := List.mem_map.mp hb
      have := (sortKeys_perm _).mem_iff.mp he
      simpa using (List.mem_filter.mp this).2
    rw [h1]
    exact fun h => h2 h.symm

theorem mapM_section {ms : Map2} (h : ∀ e ∈ ms, ∃ v, e.2.lookup en = some v) :
    ms.mapM section_ = some (ms.map fun e => unlines (sectionLines e.1 (ordered e.2))) := by
  induction ms with
  | nil => rfl
  | cons e ms ih =>
    obtain ⟨v, hv⟩ := h e (List.mem_cons_self ..)
    rw [List.mapM_cons, section_eq (k := e.1) hv, ih fun e h' => h e (List.mem_cons_of_mem _ h')]
    rfl

def comment : Str := "# The translations are partially generated by copilot".toList

/-- All the lines of the file. -/
def fileLines (ms : Map2) : List Str := [] :: comment :: ms.flatMap fun e => sectionLines e.1 (ordered e.2)

theorem unlines_append (a b : List Str) : unlines (a ++ b) = unlines a ++ unlines b := by simp [unlines]

theorem serialize_eq {m : Map2} (h : ∀ e ∈ m, ∃ v, e.2.lookup en = some v) :
    serialize m = some (unlines (fileLines (sortKeys m))) := by
  have h' : ∀ e ∈ sortKeys m, ∃ v, e.2.lookup en = some v := fun e he => h e ((sortKeys_perm m).mem_iff.mp he)
  rw [serialize, mapM_section h']
  simp only [Option.map_some]
  congr 1
  have e1 : header = unlines [[], comment] := by decide +kernel
  have e2 : fileLines (sortKeys m) = [[], comment] ++ (sortKeys m).flatMap fun e => sectionLines e.1 (ordered e.2) := rfl
  rw [e1, e2, unlines_append]
  congr 1
  generalize sortKeys m = ms
  induction ms with
  | nil => rfl
  | cons e ms ih => rw [List.map_cons, List.flatten_cons, ih, List.flatMap_cons, unlines_append]

/-! ## Writing and reading -/

theorem entryLine_good {l v : Str} (hl : GoodLang l) (hv : Tight v) (hv' : '\n' ∉ v) :
    '\n' ∉ entryLine (l, v) ∧ GoodLine (trim (entryLine (l, v))) ∧ (trim (entryLine (l, v))).head? ≠ some '[' ∧
      ∃ a b, splitEq (trim (entryLine (l, v))) = some (a, b) ∧ trim a = l ∧ trim b = v := by
  have hnl : '\n' ∉ entryLine (l, v) := by
    rw [entryLine]
    simp only [List.mem_append, not_or]
    exact ⟨⟨hl.2.2.1, by decide⟩, hv'⟩
  have key : ∃ a b, trim (entryLine (l, v)) = a ++ '=' :: b ∧ '=' ∉ a ∧ trim a = l ∧ trim b = v ∧
      (a.head? = l.head?) := by
    have sp : isWhitespace ' ' = true := by decide
    have eq : isWhitespace '=' = false := by decide
    -- the head
    have h1 : (entryLine (l, v)).dropWhile isWhitespace = (if l = [] then [] else l ++ [' ']) ++ '=' :: ' ' :: v := by
      by_cases hl0 : l = []
      · subst hl0
        rw [if_pos rfl]
        show (' ' :: '=' :: ' ' :: v).dropWhile isWhitespace = _
        rw [List.dropWhile_cons, sp, if_pos rfl, List.dropWhile_cons, eq]
        rfl
      · rw [if_neg hl0, dropWhile_of_head]
        · simp [entryLine]
        · intro c hc
          apply hl.1.1
          rw [entryLine, List.append_assoc, head_append hl0] at hc
          exact hc
    -- the end
    have h2 : ∀ p : Str, ((p ++ '=' :: ' ' :: v).reverse.dropWhile isWhitespace).reverse =
        p ++ '=' :: (if v = [] then [] else ' ' :: v) := by
      intro p
      by_cases hv0 : v = []
      · subst hv0
        rw [if_pos rfl]
        have : (p ++ ['=', ' ']).reverse = ' ' :: '=' :: p.reverse := by simp
        rw [this, List.dropWhile_cons, sp, if_pos rfl, List.dropWhile_cons, eq]
        simp
      · rw [if_neg hv0, dropWhile_of_head, List.reverse_reverse]
        intro c hc
        apply hv.2
        rw [List.head?_reverse] at hc
        have : p ++ '=' :: ' ' :: v = (p ++ ['=', ' ']) ++ v := by simp
        rw [this, List.getLast?_append] at hc
        cases hg : v.getLast? with
        | none => exact (hv0 (List.getLast?_eq_none_iff.mp hg)).elim
        | some x => rw [hg] at hc; exact hc
    refine ⟨if l = [] then [] else l ++ [' '], if v = [] then [] else ' ' :: v, ?_, ?_, ?_, ?_, ?_⟩
    · rw [trim, h1, h2]
    · split
      · simp
      · simp only [List.mem_append, not_or]; exact ⟨hl.2.1, by decide⟩
    · split
      · rename_i h; rw [h]; rfl
      · rename_i h
        have : trim (l ++ [' ']) = l := by
          rw [trim, dropWhile_of_head (s := l ++ [' '])]
          · rw [List.reverse_append]
            show ((' ' :: l.reverse).dropWhile isWhitespace).reverse = l
            rw [List.dropWhile_cons, sp, if_pos rfl, dropWhile_of_head, List.reverse_reverse]
            intro c hc
            rw [List.head?_reverse] at hc
            exact hl.1.2 c hc
          · intro c hc
            rw [head_append h] at hc
            exact hl.1.1 c hc
        exact this
    · split
      · rename_i h; rw [h]; rfl
      · have : trim (' ' :: v) = trim v := by
          rw [trim, List.dropWhile_cons, sp, if_pos rfl]; rfl
        rw [this, trim_of_tight hv]
    · split
      · rename_i h; rw [h]
      · rename_i h; rw [head_append h]
  obtain ⟨a, b, e, hn, ha, hb, hh⟩ := key
  have hhead : ∀ x, (trim (entryLine (l, v))).head? = some x → x = '=' ∨ l.head? = some x := by
    intro x hx
    rw [e] at hx
    by_cases h0 : a = []
    · subst h0
      simp at hx
      exact .inl hx.symm
    · rw [head_append h0, hh] at hx
      exact .inr hx
  refine ⟨hnl, ⟨trim_tight _, fun h => hnl (trim_sub h), ?_, ?_⟩, ?_, a, b, ?_, ha, hb⟩
  · intro h
    rcases hhead _ h with h | h
    · exact absurd h (by decide)
    · exact hl.2.2.2.1 h
  · rw [e]; simp
  · intro h
    rcases hhead _ h with h | h
    · exact absurd h (by decide)
    · exact hl.2.2.2.2 h
  · rw [e, splitEq_eq hn]

theorem headerLine (k : Str) : trim ('[' :: k ++ [']']) = '[' :: k ++ [']'] ∧ headerKey ('[' :: k ++ [']']) = some k := by
  refine ⟨trim_of_tight ⟨?_, ?_⟩, ?_⟩
  · intro c hc
    simp at hc
    subst hc
    decide
  · intro c hc
    rw [List.getLast?_append] at hc
    simp at hc
    subst hc
    decide
  · rw [headerKey]
    have : ('[' :: k ++ [']']).tail = k ++ [']'] := rfl
    rw [this, List.getLast?_append]
    simp only [List.getLast?_singleton, Option.some_or]
    rw [if_pos (by decide), List.dropLast_concat]

/-- Entries put one after another. -/
def putAll (keyFirst : Bool) (m : Map2) (es : List (Str × Str × Str)) : Map2 :=
  es.foldl (fun m e => if keyFirst then put2 m e.1 e.2.1 e.2.2 else put2 m e.2.1 e.1 e.2.2) m

def keep (l : Str) : Bool := !(decide (l.head? = some '#')) && !l.isEmpty

theorem keep_good {l : Str} (h : GoodLine l) : keep l = true := by
  simp only [keep, Bool.and_eq_true, Bool.not_eq_true', decide_eq_false_iff_not, List.isEmpty_eq_false_iff]
  exact ⟨h.2.2.1, h.2.2.2⟩

/-- Reading the entries of a key. -/
theorem read_entries (keyFirst : Bool) (k : Str) (rest : List Str) : ∀ (es : List (Str × Str)) (m : Map2),
    (∀ e ∈ es, GoodLang e.1 ∧ Tight e.2 ∧ '\n' ∉ e.2) →
    readLines keyFirst k m (((es.map entryLine).map trim).filter keep ++ rest) =
      readLines keyFirst k (putAll keyFirst m (es.map fun e => (k, e.1, e.2))) rest := by
  intro es
  induction es with
  | nil => intro m _; rfl
  | cons e es ih =>
    intro m h
    obtain ⟨l, v⟩ := e
    obtain ⟨h1, h2, h3⟩ := h _ (List.mem_cons_self ..)
    obtain ⟨_, hg, hb, a, b, hs, ha, hb'⟩ := entryLine_good h1 h2 h3
    rw [List.map_cons, List.map_cons, List.filter_cons_of_pos (keep_good hg), List.cons_append, readLines, if_neg hb, hs]
    simp only [ha, hb']
    rw [ih _ fun e he => h e (List.mem_cons_of_mem _ he)]
    rfl

/-- Reading the sections of keys. -/
theorem read_sections (keyFirst : Bool) : ∀ (ms : Map2) (k0 : Str) (m : Map2),
    (∀ e ∈ ms, ∀ f ∈ ordered e.2, GoodLang f.1 ∧ Tight f.2 ∧ '\n' ∉ f.2) →
    readLines keyFirst k0 m (((ms.flatMap fun e => sectionLines e.1 (ordered e.2)).map trim).filter keep) =
      .ok (putAll keyFirst m (ms.flatMap fun e => (ordered e.2).map fun f => (e.1, f.1, f.2))) := by
  intro ms
  induction ms with
  | nil => intro k0 m _; rfl
  | cons e ms ih =>
    intro k0 m h
    obtain ⟨k, d⟩ := e
    rw [List.flatMap_cons, List.map_append, List.filter_append]
    have hk := headerLine k
    have hkeep : keep ('[' :: k ++ [']']) = true := by
      rw [keep]; simp
    have e1 : (((sectionLines k (ordered d)).map trim).filter keep) =
        ('[' :: k ++ [']']) :: (((ordered d).map entryLine).map trim).filter keep := by
      rw [sectionLines, List.map_cons, List.map_cons, List.filter_cons_of_neg (by decide), hk.1, List.filter_cons_of_pos hkeep]
    rw [e1, List.cons_append, readLines, if_pos (by rfl), hk.2]
    simp only
    rw [read_entries keyFirst k _ _ _ (h _ (List.mem_cons_self ..)), ih _ _ fun e he => h e (List.mem_cons_of_mem _ he),
      List.flatMap_cons]
    congr 1
    simp [putAll, List.foldl_append]

theorem linesOf_unlines {ls : List Str} (h : ∀ l ∈ ls, '\n' ∉ l) : linesOf (unlines ls) = (ls.map trim).filter keep := by
  have hk : ∀ l : List Str, (l.filter fun l => !(decide (l.head? = some '#')) && !l.isEmpty) = l.filter keep := fun _ => rfl
  rw [linesOf, split_unlines h, hk, List.map_append, List.filter_append]
  have : (([[]] : List Str).map trim).filter keep = [] := by decide
  rw [this, List.append_nil]

/-- What is read from what is written: the entries one after another. -/
theorem deserialize_written (keyFirst : Bool) {ms : Map2} (hk : ∀ e ∈ ms, '\n' ∉ e.1)
    (h : ∀ e ∈ ms, ∀ f ∈ ordered e.2, GoodLang f.1 ∧ Tight f.2 ∧ '\n' ∉ f.2) :
    deserialize (unlines (fileLines ms)) keyFirst =
      .ok (putAll keyFirst [] (ms.flatMap fun e => (ordered e.2).map fun f => (e.1, f.1, f.2))) := by
  rw [deserialize, linesOf_unlines]
  · rw [fileLines, List.map_cons, List.map_cons, List.filter_cons_of_neg (by decide), List.filter_cons_of_neg (by decide +kernel)]
    exact read_sections keyFirst ms [] [] h
  · intro l hl
    rw [fileLines] at hl
    rcases List.mem_cons.mp hl with rfl | hl
    · simp
    · rcases List.mem_cons.mp hl with rfl | hl
      · decide +kernel
      · obtain ⟨e, he, hl⟩ := List.mem_flatMap.mp hl
        rw [sectionLines] at hl
        rcases List.mem_cons.mp hl with rfl | hl
        · simp
        · rcases List.mem_cons.mp hl with rfl | hl
          · have := hk e he
            simp only [List.cons_append, List.mem_cons, List.mem_append, not_or, List.not_mem_nil, or_false]
            exact ⟨by decide, this, by decide⟩
          · obtain ⟨f, hf, rfl⟩ := List.mem_map.mp hl
            obtain ⟨h1, h2, h3⟩ := h e he f hf
            exact (entryLine_good h1 h2 h3).1

/-- Entries without repetition can be looked up. -/
theorem translation_putAll (keyFirst : Bool) (es : List (Str × Str × Str)) : ∀ (m : Map2),
    (es.map fun e => (e.1, e.2.1)).Nodup → (∀ e ∈ es, translation m (if keyFirst then e.1 else e.2.1)
      (if keyFirst then e.2.1 else e.1) = none) → ∀ k l v,
    translation (putAll keyFirst m es) (if keyFirst then k else l) (if keyFirst then l else k) = some v ↔
      ((k, l, v) ∈ es ∨ translation m (if keyFirst then k else l) (if keyFirst then l else k) = some v) := by
  induction es with
  | nil => intro m _ _ k l v; simp [putAll]
  | cons e es ih =>
    intro m hn hm k l v
    obtain ⟨k0, l0, v0⟩ := e
    simp only [List.map_cons, List.nodup_cons] at hn
    have e1 : putAll keyFirst m ((k0, l0, v0) :: es) =
        putAll keyFirst (if keyFirst then put2 m k0 l0 v0 else put2 m l0 k0 v0) es := rfl
    have e2 : ∀ a b, translation (if keyFirst then put2 m k0 l0 v0 else put2 m l0 k0 v0) (if keyFirst then a else b)
        (if keyFirst then b else a) = if a = k0 ∧ b = l0 then some v0 else
          translation m (if keyFirst then a else b) (if keyFirst then b else a) := by
      intro a b
      cases keyFirst
      · simp only [Bool.false_eq_true, if_false]
        rw [translation_put2]
        by_cases h : a = k0 ∧ b = l0
        · rw [if_pos h, if_pos ⟨h.2, h.1⟩]
        · rw [if_neg h, if_neg (fun h' => h ⟨h'.2, h'.1⟩)]
      · simp only [if_true]
        rw [translation_put2]
    rw [e1, ih _ hn.2]
    · rw [e2]
      have hm0 := hm _ (List.mem_cons_self ..)
      by_cases h : k = k0 ∧ l = l0
      · obtain ⟨rfl, rfl⟩ := h
        simp only [and_self, if_true, List.mem_cons, Option.some.injEq]
        rw [hm0]
        constructor
        · rintro (h | h)
          · exact .inl (.inr h)
          · exact .inl (.inl (by rw [h]))
        · rintro ((h | h) | h)
          · cases h; exact .inr rfl
          · exact .inl h
          · cases h
      · rw [if_neg h]
        simp only [List.mem_cons]
        constructor
        · rintro (h' | h')
          · exact .inl (.inr h')
          · exact .inr h'
        · rintro ((h' | h') | h')
          · cases h'; exact (h ⟨rfl, rfl⟩).elim
          · exact .inl h'
          · exact .inr h'
    · intro e he
      rw [e2]
      rw [if_neg]
      · exact hm e (List.mem_cons_of_mem _ he)
      · rintro ⟨rfl, rfl⟩
        exact hn.1 (List.mem_map_of_mem (f := fun e => (e.1, e.2.1)) he)

/-- The entries of a map. -/
theorem entries_nodup {ms : Map2} (h : Proper ms) :
    ((ms.flatMap fun e => (ordered e.2).map fun f => (e.1, f.1, f.2)).map fun e => (e.1, e.2.1)).Nodup := by
  obtain ⟨h1, h2⟩ := h
  induction ms with
  | nil => simp
  | cons e ms ih =>
    simp only [List.map_cons, List.nodup_cons] at h1
    rw [List.flatMap_cons, List.map_append, List.nodup_append]
    refine ⟨?_, ih h1.2 fun e he => h2 e (List.mem_cons_of_mem _ he), ?_⟩
    · rw [List.map_map]
      have := nodup_ordered (h2 e (List.mem_cons_self ..))
      have e1 : ((fun e => (e.1, e.2.1)) ∘ fun f => (e.1, f.1, f.2) : Str × Str → Str × Str) = (fun x => (e.1, x)) ∘ (·.1) := rfl
      rw [e1, ← List.map_map]
      exact this.map _ fun a b hab h => hab (by cases h; rfl)
    · rintro a ha b hb rfl
      simp only [List.map_map, List.mem_map, List.mem_flatMap, Function.comp] at ha hb
      obtain ⟨f, hf, rfl⟩ := ha
      obtain ⟨x, ⟨e', he', g, hg, rfl⟩, hx⟩ := hb
      simp only [Prod.mk.injEq] at hx
      exact h1.1 (by rw [← hx.1]; exact List.mem_map_of_mem (f := (·.1)) he')

end Tinymist.L10n
