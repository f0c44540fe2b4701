import Verif.Lemmas.L10n
/-!
# C85 and C86: messages and the language they are in
-/
namespace Tinymist.L10n

/-! ## C85: messages with arguments -/

/-- What is asked for exists: each message has exactly one meaning (`filled_unique`). -/
theorem filled_exists (args : List (Str × Str)) (m : Str) : ∃ out, Filled args m out := by
  induction hn : m.length using Nat.strongRecOn generalizing m with
  | _ n ih =>
    cases m with
    | nil => exact ⟨[], .nil⟩
    | cons c cs =>
      by_cases hc : c = '{'
      · subst hc
        by_cases hb : '}' ∈ cs
        · obtain ⟨a, b, e, ha⟩ := List.append_of_mem hb |>.elim fun a h => h.elim fun b e => by
            exact (⟨cs.takeWhile (· ≠ '}'), (cs.dropWhile (· ≠ '}')).tail, by
              have hw : ∀ l : Str, '}' ∈ l → l = l.takeWhile (· ≠ '}') ++ '}' :: (l.dropWhile (· ≠ '}')).tail := by
                intro l
                induction l with
                | nil => intro h; cases h
                | cons d l ihl =>
                  intro h
                  by_cases hd : d = '}'
                  · subst hd; simp
                  · have hm : '}' ∈ l := by
                      rcases List.mem_cons.mp h with h | h
                      · exact (hd h.symm).elim
                      · exact h
                    rw [List.takeWhile_cons, List.dropWhile_cons]
                    simp only [ne_eq, hd, not_false_eq_true, decide_true, if_true]
                    rw [List.cons_append]
                    exact congrArg (d :: ·) (ihl hm)
              exact hw cs hb, by
                intro hmem
                have := List.all_eq_true.mp (List.all_takeWhile (l := cs) (p := (· ≠ '}'))) _ hmem
                simp at this⟩ : ∃ a b : Str, cs = a ++ '}' :: b ∧ '}' ∉ a)
          obtain ⟨out, ho⟩ := ih b.length (by subst hn; rw [e]; simp; omega) b rfl
          rw [e]
          cases hl : args.lookup a with
          | none => exact ⟨_, .unknown ha hl ho⟩
          | some v => exact ⟨_, .hole ha hl ho⟩
        · exact ⟨_, .unclosed hb⟩
      · obtain ⟨out, ho⟩ := ih cs.length (by subst hn; simp) cs rfl
        exact ⟨_, .text hc ho⟩

/-- **C85**, as far as it holds. A message without placeholders is shown as it is. So is one that ends with its only placeholder,
which is replaced by its argument. (The full claim, `Filled args m (fill args m)` for every message, is false, see
`character_swallowed` and `unknown_mangled`.) -/
theorem filled_partial (args : List (Str × Str)) (t name v : Str) (ht : '{' ∉ t) (hn : '}' ∉ name)
    (hv : args.lookup name = some v) :
    Filled args t (fill args t) ∧
      Filled args (t ++ '{' :: name ++ ['}']) (fill args (t ++ '{' :: name ++ ['}'])) ∧
      fill args (t ++ '{' :: name ++ ['}']) = t ++ v := by
  have hf : fill args (t ++ '{' :: name ++ ['}']) = t ++ v := by
    rw [List.append_assoc, fill_append args ht, fill_hole args hn, resolve, hv]
    simp [fill_nil]
  refine ⟨by rw [fill_plain args ht]; exact filled_plain args ht, ?_, hf⟩
  rw [hf, List.append_assoc]
  apply filled_append args ht
  have := Filled.hole hn hv (.nil (args := args))
  rwa [List.append_nil] at this

example : fill [("object".toList, "7".toList)] "invalid configuration object: {object}".toList =
    "invalid configuration object: 7".toList := by decide +kernel

/-- The character behind a placeholder is lost, whatever it is. -/
theorem swallows (args : List (Str × Str)) (t name v : Str) (c : Char) (rest : Str) (ht : '{' ∉ t) (hn : '}' ∉ name)
    (hv : args.lookup name = some v) :
    fill args (t ++ '{' :: name ++ '}' :: c :: rest) = t ++ v ++ fill args rest := by
  rw [List.append_assoc, fill_append args ht, fill_hole args hn, resolve, hv, List.append_assoc]
  rfl

/-- **C85 is violated**: for every placeholder with text behind it the message is not what is meant. -/
theorem character_swallowed (args : List (Str × Str)) (t name v : Str) (c : Char) (rest : Str) (ht : '{' ∉ t)
    (hn : '}' ∉ name) (hv : args.lookup name = some v) (hc : '{' ∉ c :: rest) :
    Filled args (t ++ '{' :: name ++ '}' :: c :: rest) (t ++ v ++ c :: rest) ∧
      ¬ Filled args (t ++ '{' :: name ++ '}' :: c :: rest) (fill args (t ++ '{' :: name ++ '}' :: c :: rest)) := by
  have h1 : Filled args (t ++ '{' :: name ++ '}' :: c :: rest) (t ++ v ++ c :: rest) := by
    rw [List.append_assoc, List.append_assoc]
    exact filled_append args ht (.hole hn hv (filled_plain args hc))
  refine ⟨h1, fun h2 => ?_⟩
  have := filled_unique h1 h2
  rw [swallows args t name v c rest ht hn hv, fill_plain args fun h => hc (List.mem_cons_of_mem _ h)] at this
  have := congrArg List.length this
  simp at this

/-- **C85 is violated**: a placeholder without an argument loses its closing brace. -/
theorem unknown_mangled (args : List (Str × Str)) (t name rest : Str) (ht : '{' ∉ t) (hn : '}' ∉ name)
    (hv : args.lookup name = none) (hr : '{' ∉ rest) :
    fill args (t ++ '{' :: name ++ '}' :: rest) = t ++ '{' :: name ++ rest.drop 1 ∧
      ¬ Filled args (t ++ '{' :: name ++ '}' :: rest) (fill args (t ++ '{' :: name ++ '}' :: rest)) := by
  have hf : fill args (t ++ '{' :: name ++ '}' :: rest) = t ++ '{' :: name ++ rest.drop 1 := by
    rw [List.append_assoc, fill_append args ht, fill_hole args hn, resolve, hv,
      fill_plain args fun h => hr (List.mem_of_mem_drop h), List.append_assoc]
  refine ⟨hf, fun h2 => ?_⟩
  have h1 : Filled args (t ++ '{' :: name ++ '}' :: rest) (t ++ ('{' :: name ++ '}' :: rest)) := by
    rw [List.append_assoc]
    exact filled_append args ht (.unknown hn hv (filled_plain args hr))
  have := filled_unique h1 h2
  rw [hf] at this
  have := congrArg List.length this
  simp at this
  omega

theorem append_toList (a b : String) : (a ++ b).toList = a.toList ++ b.toList := by simp

/-- The warning about a setting of a wrong type (config.rs:285) is shown without the quote behind the name. -/
theorem setting_warning (key err : Str) :
    fill [("key".toList, key), ("err".toList, err)] "failed to deserialize \"{key}\": {err}".toList =
      "failed to deserialize \"".toList ++ key ++ ": ".toList ++ err := by
  have h1 := swallows [("key".toList, key), ("err".toList, err)] "failed to deserialize \"".toList "key".toList key '"'
    ": {err}".toList (by decide +kernel) (by decide +kernel) rfl
  have h2 := (filled_partial [("key".toList, key), ("err".toList, err)] ": ".toList "err".toList err (by decide +kernel)
    (by decide +kernel) (by rw [List.lookup]; simp)).2.2
  have e1 : "failed to deserialize \"{key}\": {err}".toList =
      "failed to deserialize \"".toList ++ '{' :: "key".toList ++ '}' :: '"' :: ": {err}".toList := by decide +kernel
  have e2 : ": {err}".toList = ": ".toList ++ '{' :: "err".toList ++ ['}'] := by decide +kernel
  rw [e1, h1, e2, h2]
  simp only [List.append_assoc]

/-- The error about a root that is not absolute (entry.rs:183) never shows the root. -/
theorem root_not_shown (root : Str) :
    fill [("root".toList, root)] "rootPath or typstExtraArgs.root must be an absolute path: {root:?}".toList =
      "rootPath or typstExtraArgs.root must be an absolute path: {root:?".toList := by
  have h1 := (unknown_mangled [("root".toList, root)] "rootPath or typstExtraArgs.root must be an absolute path: ".toList
    "root:?".toList [] (by decide +kernel) (by decide +kernel) (by rw [List.lookup]; simp) (by simp)).1
  have e1 : "rootPath or typstExtraArgs.root must be an absolute path: {root:?}".toList =
      "rootPath or typstExtraArgs.root must be an absolute path: ".toList ++ '{' :: "root:?".toList ++ '}' :: [] := by
    decide +kernel
  rw [e1, h1]
  decide +kernel

/-! ## C86: the language -/

theorem lookup_mem {β : Type} {l : List (Str × β)} {k : Str} {v : β} (h : l.lookup k = some v) : (k, v) ∈ l := by
  induction l with
  | nil => cases h
  | cons e l ih =>
    obtain ⟨k', v'⟩ := e
    rw [List.lookup_cons] at h
    by_cases hk : k = k'
    · subst hk; simp at h; simp [h]
    · have : (k == k') = false := by simpa using hk
      rw [this] at h
      exact List.mem_cons_of_mem _ (ih h)

theorem byteLen_ascii {s : Str} (h : ∀ c ∈ s, c.toNat < 128) : byteLen s = s.length := by
  induction s with
  | nil => rfl
  | cons c s ih =>
    have hc : c.utf8Size = 1 := by
      have := h c (List.mem_cons_self ..)
      rw [Char.utf8Size_eq_one_iff]
      rw [UInt32.le_iff_toNat_le]
      have e : c.val.toNat = c.toNat := rfl
      rw [e]
      show c.toNat ≤ 127
      omega
    have := ih fun c hc => h c (List.mem_cons_of_mem _ hc)
    rw [byteLen] at this ⊢
    rw [List.map_cons, List.sum_cons, this, hc, List.length_cons]
    omega

/-- The condition on a language is that the locale speaks it with a region. -/
theorem region_iff {l k : Str} (h : ∀ c ∈ k, c.toNat < 128) :
    (k.isPrefixOf l && decide (l[byteLen k]? = some '-')) = true ↔ ∃ region, l = k ++ '-' :: region := by
  rw [Bool.and_eq_true, List.isPrefixOf_iff_prefix, decide_eq_true_eq, byteLen_ascii h]
  constructor
  · rintro ⟨⟨r, rfl⟩, h2⟩
    rw [List.getElem?_append_right (Nat.le_refl _), Nat.sub_self] at h2
    cases r with
    | nil => cases h2
    | cons c r => simp at h2; exact ⟨r, by rw [h2]⟩
  · rintro ⟨r, rfl⟩
    refine ⟨List.prefix_append .., ?_⟩
    rw [List.getElem?_append_right (Nat.le_refl _), Nat.sub_self]
    rfl

/-- **C86.** The messages are in a language that the locale speaks if there is one, in the very language of the locale if there
is; otherwise the language stays. Languages are named by ASCII characters. -/
theorem locale_language (lower : Str → Str) (all : List (Str × List (Str × Str))) (current : Option (List (Str × Str)))
    (locale : Str) (ascii : ∀ e ∈ all, ∀ c ∈ e.1, c.toNat < 128) :
    (∀ t, all.lookup (lower locale) = some t → setLocale lower (some all) current locale = some t) ∧
      ((∃ e ∈ all, Speaks (lower locale) e.1) →
        ∃ e ∈ all, Speaks (lower locale) e.1 ∧ setLocale lower (some all) current locale = some e.2) ∧
      ((∀ e ∈ all, ¬ Speaks (lower locale) e.1) → setLocale lower (some all) current locale = current) := by
  refine ⟨fun t h => by simp only [setLocale, h], ?_, ?_⟩
  · rintro ⟨e, he, hs⟩
    cases hl : all.lookup (lower locale) with
    | some t => exact ⟨_, lookup_mem hl, .inl rfl, by simp only [setLocale, hl]⟩
    | none =>
      have hr : ∃ region, lower locale = e.1 ++ '-' :: region := by
        rcases hs with h | h
        · exfalso
          have := List.lookup_eq_none_iff.mp hl e he
          simp [h] at this
        · exact h
      cases hf : all.find? fun e => e.1.isPrefixOf (lower locale) && decide ((lower locale)[byteLen e.1]? = some '-') with
      | none =>
        have := List.find?_eq_none.mp hf e he
        exact (this ((region_iff (ascii e he)).mpr hr)).elim
      | some e' =>
        have hm := List.mem_of_find?_eq_some hf
        have hp := List.find?_some hf
        exact ⟨e', hm, .inr ((region_iff (ascii e' hm)).mp hp), by simp only [setLocale, hl, hf]⟩
  · intro hn
    have hl : all.lookup (lower locale) = none := by
      rw [List.lookup_eq_none_iff]
      intro e he
      simp only [Bool.not_eq_true', beq_eq_false_iff_ne, ne_eq, bne_iff_ne]
      exact fun h => hn e he (.inl h)
    have hf : (all.find? fun e => e.1.isPrefixOf (lower locale) && decide ((lower locale)[byteLen e.1]? = some '-')) = none := by
      rw [List.find?_eq_none]
      intro e he hp
      exact hn e he (.inr ((region_iff (ascii e he)).mp hp))
    simp only [setLocale, hl, hf]

/-- **C86.** A message is shown in the language in force if it has the message, otherwise as the program has it. -/
theorem message_shown (t : List (Str × Str)) (key message : Str) (args : List (Str × Str)) :
    translate none key message args = fill args message ∧
      (∀ v, t.lookup key = some v → translate (some t) key message args = fill args v) ∧
      (t.lookup key = none → translate (some t) key message args = fill args message) := by
  refine ⟨rfl, fun v h => ?_, fun h => ?_⟩ <;> simp only [translate, findMessage, h] <;> rfl

/-- A Chinese client gets Chinese, with any region and any translations of other languages. -/
example (r : Str) : setLocale id (some [(['e', 'n'], []), (['z', 'h'], [(['k'], ['v'])])]) none (['z', 'h', '-'] ++ r) =
    some [(['k'], ['v'])] := by
  have h := (locale_language id [(['e', 'n'], []), (['z', 'h'], [(['k'], ['v'])])] none (['z', 'h', '-'] ++ r) (by decide)).2.1
    ⟨_, List.mem_cons_of_mem _ (List.mem_cons_self ..), .inr ⟨r, rfl⟩⟩
  obtain ⟨e, he, hs, h⟩ := h
  rw [h]
  rcases List.mem_cons.mp he with rfl | he
  · rcases hs with hs | ⟨_, hs⟩ <;> simp at hs
  · rcases List.mem_cons.mp he with rfl | he
    · rfl
    · cases he

/-- If two languages fit, which one is taken depends on the order of a hash map. -/
theorem unspecific :
    setLocale id (some [("zh".toList, []), ("zh-tw".toList, [([], [])])]) none "zh-tw-x".toList = some [] ∧
      setLocale id (some [("zh-tw".toList, [([], [])]), ("zh".toList, [])]) none "zh-tw-x".toList = some [([], [])] := by
  decide +kernel

end Tinymist.L10n
