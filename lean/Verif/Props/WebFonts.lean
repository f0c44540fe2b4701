import Verif.Lemmas.WebFonts

/-! # Families (C163) and variants (C164) of fonts of a browser -/

namespace Tinymist.WebFonts

/-! ## C163: families -/

theorem sep_iff (c : Char) : c ∈ separators ↔ Between c := by
  simp [separators, Between]

theorem sep_lower {c : Char} (h : c ∈ separators) : c.toLower = c := by
  have : ∀ c ∈ separators, c.toLower = c := by decide
  exact this c h

theorem lower_cases (c : Char) : c.toLower = c ∨ ∃ k < 26, c = Char.ofNat (65 + k) := by
  by_cases h : 'A' ≤ c ∧ c ≤ 'Z'
  · right
    have h1 : 65 ≤ c.toNat := h.1
    have h2 : c.toNat ≤ 90 := h.2
    exact ⟨c.toNat - 65, by omega, by rw [Nat.add_sub_cancel' h1, Char.ofNat_toNat]⟩
  · left
    unfold Char.toLower
    rw [dif_neg]
    exact fun h' => h ⟨h'.1, h'.2⟩

theorem lower_sep {c : Char} (h : c.toLower ∈ separators) : c ∈ separators := by
  rcases lower_cases c with e | ⟨k, hk, rfl⟩
  · rwa [e] at h
  · have : ∀ k < 26, (Char.ofNat (65 + k)).toLower ∉ separators := by decide +kernel
    exact absurd h (this k hk)

/-- The words that are looked for. -/
def wordsOf (b : Text) : List String := if isNewCM b then suffixes ++ ["book"] else suffixes

theorem wordsOf_ok (b : Text) : WordsOk (wordsOf b) := by
  unfold wordsOf; split
  · exact book_ok
  · exact suffixes_ok

theorem newcm_iff (b : Text) : isNewCM b = true ↔ ComputerModern b := by
  unfold isNewCM ComputerModern
  rw [Bool.or_eq_true, List.isPrefixOf_iff_prefix, List.isPrefixOf_iff_prefix]

theorem mem_words (b : Text) (w : String) : w ∈ wordsOf b ↔ w ∈ styleWords ∨ (ComputerModern b ∧ w = "book") := by
  have h1 : ∀ w : String, w ∈ suffixes ↔ w ∈ styleWords := by
    have a : ∀ w ∈ suffixes, w ∈ styleWords := by decide +kernel
    have b : ∀ w ∈ styleWords, w ∈ suffixes := by decide +kernel
    exact fun w => ⟨a w, b w⟩
  rw [← h1, ← newcm_iff]
  unfold wordsOf
  split <;> simp_all

theorem mem_mods (w : String) : w ∈ modifiers ↔ w ∈ modifierWords := by
  have a : ∀ w ∈ modifiers, w ∈ modifierWords := by decide +kernel
  have b : ∀ w ∈ modifierWords, w ∈ modifiers := by decide +kernel
  exact ⟨a w, b w⟩

theorem prefix_behind {p b t : Text} {c : Char} (hc : c ∉ p) : p <+: b ++ c :: t ↔ p <+: b := by
  constructor
  · rintro ⟨x, h⟩
    rcases List.append_eq_append_iff.mp h with ⟨y, h1, h2⟩ | ⟨y, h1, h2⟩
    · exact ⟨y, h1.symm⟩
    · cases y with
      | nil => exact ⟨[], by simpa using h1⟩
      | cons z y =>
        rw [List.cons_append] at h2
        obtain ⟨rfl, -⟩ := List.cons.inj h2
        exact absurd (by rw [h1]; simp) hc
  · exact fun h => h.trans (List.prefix_append _ _)

theorem cm_behind {b t : Text} {c : Char} (hc : c ∈ separators) : isNewCM (b ++ c :: t) = isNewCM b := by
  have h1 : ∀ c ∈ separators, c ∉ "NewCM".toList := by decide
  have h2 : ∀ c ∈ separators, c ∉ "NewComputerModern".toList := by decide
  have e : isNewCM (b ++ c :: t) = true ↔ isNewCM b = true := by
    rw [newcm_iff, newcm_iff]
    unfold ComputerModern
    rw [prefix_behind (h1 c hc), prefix_behind (h2 c hc)]
  cases h : isNewCM b with
  | true => exact e.mpr h
  | false => rw [← Bool.not_eq_true]; exact fun h' => by rw [e.mp h'] at h; cases h

theorem trim_neat {t : Text} (h1 : ∀ c, t.head? = some c → Pages.isWhitespace c = false)
    (h2 : ∀ c, t.getLast? = some c → Pages.isWhitespace c = false) : Pages.trim t = t := by
  unfold Pages.trim
  have e1 : t.dropWhile Pages.isWhitespace = t := by
    cases t with
    | nil => rfl
    | cons c r => rw [List.dropWhile_cons_of_neg]; simp [h1 c rfl]
  rw [e1]
  have e2 : t.reverse.dropWhile Pages.isWhitespace = t.reverse := by
    cases h : t.reverse with
    | nil => rfl
    | cons c r =>
      have : t.getLast? = some c := by
        rw [← List.head?_reverse, h]; rfl
      rw [List.dropWhile_cons_of_neg]; simp [h2 c this]
  rw [e2, List.reverse_reverse]

/-- The name without blanks and dots in front, and what is left of it. -/
theorem family_eq {b : Text} (h1 : ∃ c, b.head? = some c ∧ Pages.isWhitespace c = false ∧ c ≠ '.')
    (h2 : ∀ c, b.getLast? = some c → Pages.isWhitespace c = false) :
    typographicFamily b =
      fixName (if isNewCM b then (trimTens (b.take (trimLoop (wordsOf b) (b.map Char.toLower)).length).reverse).reverse
        else b.take (trimLoop (wordsOf b) (b.map Char.toLower)).length) := by
  obtain ⟨c, hc, hw, hd⟩ := h1
  have e1 : Pages.trim b = b := trim_neat (fun d hd => by rw [hc] at hd; cases hd; exact hw) h2
  have e2 : b.dropWhile (· = '.') = b := by
    cases b with
    | nil => rfl
    | cons x r => simp at hc; subst hc; rw [List.dropWhile_cons_of_neg]; simpa using hd
  unfold typographicFamily
  simp only [e1, e2, wordsOf]

theorem word_last {ws : List String} (hne : ∀ w ∈ ws, w.toList ≠ []) (hb : ∀ w ∈ ws, ∀ c ∈ w.toList, ∀ d : Char, d.toLower = c → Pages.isWhitespace d = false)
    {l : List String} (hl : l ≠ []) (hm : ∀ w ∈ l, w ∈ ws) {st : Text} (h : st.map Char.toLower = l.flatMap String.toList) :
    st ≠ [] ∧ ∀ c ∈ st, Pages.isWhitespace c = false := by
  constructor
  · rintro rfl
    obtain ⟨w, r, rfl⟩ := List.exists_cons_of_ne_nil hl
    simp at h
    exact hne w (hm w (by simp)) (by simpa using h.1)
  · intro c hc
    have : c.toLower ∈ l.flatMap String.toList := by rw [← h]; exact List.mem_map.mpr ⟨c, hc, rfl⟩
    obtain ⟨w, hw, hcw⟩ := List.mem_flatMap.mp this
    exact hb w (hm w hw) _ hcw c rfl

theorem ws_not_word {d : Char} (h : Pages.isWhitespace d = true) : d.toLower = d ∧ ∀ w ∈ suffixes ++ ["book"], d ∉ w.toList := by
  have key : ∀ w ∈ suffixes ++ ["book"], ∀ c ∈ w.toList, Pages.isWhitespace c = false := by decide +kernel
  have hl : d.toLower = d := by
    rcases lower_cases d with e | ⟨k, hk, rfl⟩
    · exact e
    · have : ∀ k < 26, Pages.isWhitespace (Char.ofNat (65 + k)) = false := by decide +kernel
      rw [this k hk] at h; cases h
  exact ⟨hl, fun w hw hd => by have := key w hw d hd; rw [h] at this; cases this⟩

theorem styles_not_blank {b st : Text} (h : Styles b st) : st ≠ [] ∧ ∀ c ∈ st, Pages.isWhitespace c = false := by
  obtain ⟨l, hl, hm, e⟩ := h
  have hsub : ∀ w ∈ wordsOf b, w ∈ suffixes ++ ["book"] := by
    intro w hw
    unfold wordsOf at hw
    split at hw
    · exact hw
    · simp [hw]
  refine word_last (ws := wordsOf b) (wordsOf_ok b).ne ?_ hl (fun w hw => (mem_words b w).mpr (hm w hw)) e
  intro w hw c hc d hd
  rw [← Bool.not_eq_true]
  intro hws
  obtain ⟨e1, e2⟩ := ws_not_word hws
  rw [e1] at hd
  exact e2 w (hsub w hw) (hd ▸ hc)

theorem between_not {b : Text} {t st : Text} (hst : st ≠ []) (hw : ∀ c ∈ st, Pages.isWhitespace c = false) :
    ∀ c, (b ++ t ++ st).getLast? = some c → Pages.isWhitespace c = false := by
  intro c hc
  rw [List.getLast?_append] at hc
  cases hg : st.getLast? with
  | none => exact absurd (List.getLast?_eq_none_iff.mp hg) hst
  | some d =>
    rw [hg] at hc
    simp at hc
    subst hc
    exact hw _ (List.mem_of_getLast? hg)

theorem head_append {b t : Text} (h : ∃ c, b.head? = some c ∧ Pages.isWhitespace c = false ∧ c ≠ '.') :
    ∃ c, (b ++ t).head? = some c ∧ Pages.isWhitespace c = false ∧ c ≠ '.' := by
  obtain ⟨c, hc, h⟩ := h
  refine ⟨c, ?_, h⟩
  cases b with
  | nil => cases hc
  | cons x r => exact hc

/-- If the loop on the name with something behind it goes on as on the name, the families are the same. -/
theorem family_same {b t : Text} {c : Char} (hb : Neat b) (hc : c ∈ separators)
    (hl : ∀ d, (b ++ c :: t).getLast? = some d → Pages.isWhitespace d = false)
    (h : trimLoop (wordsOf b) ((b ++ c :: t).map Char.toLower) = trimLoop (wordsOf b) (b.map Char.toLower)) :
    typographicFamily (b ++ c :: t) = typographicFamily b := by
  obtain ⟨h1, x, hx, hxw⟩ := hb
  rw [family_eq h1 (fun d hd => by rw [hx] at hd; cases hd; exact hxw), family_eq (head_append h1) hl]
  have ew : wordsOf (b ++ c :: t) = wordsOf b := by unfold wordsOf; rw [cm_behind hc]
  rw [ew, h, cm_behind hc, List.take_append_of_le_length]
  have := trimLoop_length (wordsOf b) (b.map Char.toLower)
  simpa using this

theorem lower_modified {b : Text} (h : ¬ EndsModified b) :
    ∀ a c m, c ∈ separators → m ∈ modifiers → b.map Char.toLower ≠ a ++ c :: m.toList := by
  intro a c m hc hm e
  obtain ⟨a', r, rfl, ha, hr⟩ := List.map_eq_append_iff.mp e
  obtain ⟨c', m', rfl, hc', hm'⟩ := List.map_eq_cons_iff.mp hr
  exact h ⟨a', c', m', rfl, (sep_iff _).mp (lower_sep (hc' ▸ hc)), m, (mem_mods m).mp hm, hm'⟩

/-- **C163.** All styles of a family have the same family name: words for styles behind the name are taken off, in whatever case and
whatever is between them and the name, if the name itself does not end like a modified style. -/
theorem variants_together {b st : Text} {c : Char} (hb : Neat b) (hc : Between c) (hst : Styles b st) (hm : ¬ EndsModified b) :
    typographicFamily (b ++ c :: st) = typographicFamily b := by
  have hs := (sep_iff c).mpr hc
  obtain ⟨hne, hw⟩ := styles_not_blank hst
  refine family_same hb hs (by simpa using between_not (b := b) (t := [c]) hne hw) ?_
  obtain ⟨l, hl, hlw, e⟩ := hst
  have hlw' : ∀ w ∈ l, w ∈ wordsOf b := fun w hw => (mem_words b w).mpr (hlw w hw)
  have ok := wordsOf_ok b
  rw [List.map_append, List.map_cons, sep_lower hs, e]
  have e2 : b.map Char.toLower ++ c :: l.flatMap String.toList = (b.map Char.toLower ++ [c]) ++ l.flatMap String.toList := by simp
  rw [e2]
  apply trimLoop_step (flatMap_some hl hlw' _)
  · apply round_plain hs (b := b.map Char.toLower) ?_ (lower_modified hm)
    rw [stripAll_words ok _ l rfl hlw', stripAll_none (stripWord_sep ok hs)]
  · simp

/-- **C163.** So are modified styles, like `Semi Bold` and `Extra-Condensed`. -/
theorem modified_together {b m st : Text} {c d : Char} (hb : Neat b) (hc : Between c) (hd : Between d) (hm : Modifier m)
    (hst : Styles b st) : typographicFamily (b ++ c :: (m ++ d :: st)) = typographicFamily b := by
  have hs := (sep_iff c).mpr hc
  have hs' := (sep_iff d).mpr hd
  obtain ⟨hne, hw⟩ := styles_not_blank hst
  refine family_same hb hs (by simpa using between_not (b := b) (t := c :: (m ++ [d])) hne hw) ?_
  obtain ⟨l, hl, hlw, e⟩ := hst
  obtain ⟨w, hwm, em⟩ := hm
  have hlw' : ∀ w ∈ l, w ∈ wordsOf b := fun w hw => (mem_words b w).mpr (hlw w hw)
  have ok := wordsOf_ok b
  rw [List.map_append, List.map_cons, List.map_append, List.map_cons, sep_lower hs, sep_lower hs', e, em]
  have e2 : b.map Char.toLower ++ c :: (w.toList ++ d :: l.flatMap String.toList) =
      (b.map Char.toLower ++ c :: w.toList ++ [d]) ++ l.flatMap String.toList := by simp
  rw [e2]
  apply trimLoop_step (flatMap_some hl hlw' _)
  · apply round_modified hs hs' ((mem_mods w).mpr hwm)
    rw [stripAll_words ok _ l rfl hlw', stripAll_none (stripWord_sep ok hs')]
  · simp

/-- **C163.** And modified styles that are written in one word, like `SemiBold`. -/
theorem joined_together {b m st : Text} {c : Char} (hb : Neat b) (hc : Between c) (hm : Modifier m) (hd : m.map Char.toLower ≠ "demi".toList)
    (hst : Styles b st) : typographicFamily (b ++ c :: (m ++ st)) = typographicFamily b := by
  have hs := (sep_iff c).mpr hc
  obtain ⟨hne, hw⟩ := styles_not_blank hst
  refine family_same hb hs (by simpa using between_not (b := b) (t := c :: m) hne hw) ?_
  obtain ⟨l, hl, hlw, e⟩ := hst
  obtain ⟨w, hwm, em⟩ := hm
  have hlw' : ∀ w ∈ l, w ∈ wordsOf b := fun w hw => (mem_words b w).mpr (hlw w hw)
  have ok := wordsOf_ok b
  rw [List.map_append, List.map_cons, List.map_append, sep_lower hs, e, em]
  have e2 : b.map Char.toLower ++ c :: (w.toList ++ l.flatMap String.toList) =
      (b.map Char.toLower ++ c :: w.toList) ++ l.flatMap String.toList := by simp
  rw [e2]
  apply trimLoop_step (flatMap_some hl hlw' _)
  · apply round_joined hs ((mem_mods w).mpr hwm)
    rw [stripAll_words ok _ l rfl hlw', stripAll_none]
    rw [stripWord_behind (fun v hv h => ok.nosep v hv c h hs)]
    have : ∀ w ∈ modifierWords, w.toList ≠ "demi".toList → stripWord suffixes w.toList = none ∧ stripWord (suffixes ++ ["book"]) w.toList = none := by
      decide +kernel
    obtain ⟨n1, n2⟩ := this w hwm (by rw [← em]; exact hd)
    unfold wordsOf
    split
    · rw [n2]; rfl
    · rw [n1]; rfl
  · simp

/-- **C163.** A name that does not end with a word for a style is kept, other than that of New Computer Modern and one that is corrected. -/
theorem unstyled_kept {b : Text} (hb : Neat b) (hcm : ¬ ComputerModern b) (hn : b ≠ "Noto Sans Symbols2".toList)
    (h : ∀ a st, b = a ++ st → ¬ Styles b st) : typographicFamily b = b := by
  obtain ⟨h1, x, hx, hxw⟩ := hb
  rw [family_eq h1 (fun d hd => by rw [hx] at hd; cases hd; exact hxw)]
  have hcm' : isNewCM b = false := by rw [← Bool.not_eq_true, newcm_iff]; exact hcm
  have hnone : stripWord (wordsOf b) (b.map Char.toLower) = none := by
    cases e : stripWord (wordsOf b) (b.map Char.toLower) with
    | none => rfl
    | some s =>
      obtain ⟨w, hw, e⟩ := stripWord_some e
      obtain ⟨a, st, rfl, -, hst⟩ := List.map_eq_append_iff.mp e
      exact absurd ⟨[w], by simp, by simpa using (mem_words _ w).mp hw, by simpa using hst⟩ (h a st rfl)
  have : trimLoop (wordsOf b) (b.map Char.toLower) = b.map Char.toLower := by
    rw [trimLoop_eq, hnone]; rfl
  rw [this, hcm']
  simp only [Bool.false_eq_true, if_false, List.length_map, List.take_length]
  have no : ∀ s : String, "NewCM".toList <+: s.toList ∨ "NewComputerModern".toList <+: s.toList → b ≠ s.toList := by
    rintro s hs rfl; exact hcm hs
  unfold fixName
  rw [if_neg hn, if_neg (no _ (by decide)), if_neg (no _ (by decide)), if_neg (no _ (by decide)), if_neg (no _ (by decide)), if_neg]
  rintro (h | h)
  · exact no _ (by decide) h
  · exact no _ (by decide) h

theorem stripWord_prefix {ws : List String} {t s : Text} (h : stripWord ws t = some s) : s <+: t := by
  obtain ⟨w, -, e⟩ := stripWord_some h
  exact ⟨w.toList, e.symm⟩

theorem stripAll_prefix (ws : List String) (t : Text) : stripAll ws t <+: t := by
  induction h : t.length using Nat.strongRecOn generalizing t with
  | ind n ih =>
    rw [stripAll]
    split
    · rename_i s hs
      split
      · rename_i hl
        exact (ih s.length (by omega) s rfl).trans (stripWord_prefix hs)
      · exact List.prefix_refl t
    · exact List.prefix_refl t

theorem stripSep_prefix {t s : Text} (h : stripSep t = some s) : s <+: t := by
  obtain ⟨c, -, e⟩ := (stripSep_iff _ _).mp h
  exact ⟨[c], e.symm⟩

theorem round_prefix (ws : List String) (t : Text) : round ws t <+: t := by
  have ha := stripAll_prefix ws t
  unfold round
  simp only
  cases h1 : stripSep (stripAll ws t) with
  | some s =>
    have hs := (stripSep_prefix h1).trans ha
    simp only
    split
    · rename_i m hm
      split
      · rename_i r hr
        exact ((stripSep_prefix hr).trans (stripWord_prefix hm)).trans hs
      · exact hs
    · exact hs
  | none =>
    simp only
    split
    · rename_i m hm
      split
      · rename_i r hr
        exact ((stripSep_prefix hr).trans (stripWord_prefix hm)).trans ha
      · exact List.prefix_refl t
    · exact List.prefix_refl t

theorem trimLoop_prefix (ws : List String) (t : Text) :
    trimLoop ws t <+: t ∧ ((stripWord ws (trimLoop ws t)).isSome = true → (trimLoop ws t).length ≤ (round ws (trimLoop ws t)).length) := by
  induction h : t.length using Nat.strongRecOn generalizing t with
  | ind n ih =>
    rw [trimLoop_eq]
    split
    · split
      · rename_i hl
        obtain ⟨h1, h2⟩ := ih _ (by omega) (round ws t) rfl
        exact ⟨h1.trans (round_prefix ws t), h2⟩
      · exact ⟨List.prefix_refl t, fun _ => by omega⟩
    · rename_i hn
      exact ⟨List.prefix_refl t, fun h => absurd h hn⟩

/-- What is left of a name has no words for styles behind a separator. -/
theorem trimLoop_done {ws : List String} (ok : WordsOk ws) {t a : Text} {c : Char} (hc : c ∈ separators) {l : List String} (hl : l ≠ [])
    (hlw : ∀ w ∈ l, w ∈ ws) : trimLoop ws t ≠ a ++ c :: l.flatMap String.toList := by
  intro e
  obtain ⟨-, h⟩ := trimLoop_prefix ws t
  have e2 : a ++ c :: l.flatMap String.toList = (a ++ [c]) ++ l.flatMap String.toList := by simp
  rw [e, e2] at h
  have hlen := h (flatMap_some hl hlw _)
  have hr : (round ws ((a ++ [c]) ++ l.flatMap String.toList)).length ≤ a.length := by
    unfold round
    simp only
    rw [stripAll_words ok _ l rfl hlw, stripAll_none (stripWord_sep ok hc)]
    simp only [(stripSep_iff (a ++ [c]) a).mpr ⟨c, hc, rfl⟩]
    split
    · rename_i m hm
      split
      · rename_i s hs
        exact ((stripSep_prefix hs).trans (stripWord_prefix hm)).length_le
      · exact Nat.le_refl _
    · exact Nat.le_refl _
  simp at hlen hr
  omega

/-- **C163.** Other than for New Computer Modern and one corrected name, the family is the beginning of the name, and nothing that is a style
by itself is left at its end.
Missing: names with blanks around them, or that consist of style words only. -/
theorem family_bare_partial {b : Text} (hb : Neat b) (hcm : ¬ ComputerModern b) (hn : typographicFamily b ≠ "Noto Sans Symbols 2".toList) :
    typographicFamily b <+: b ∧ ∀ a c st, Between c → Styles b st → typographicFamily b ≠ a ++ c :: st := by
  obtain ⟨h1, x, hx, hxw⟩ := hb
  have hcm' : isNewCM b = false := by rw [← Bool.not_eq_true, newcm_iff]; exact hcm
  have hf := family_eq h1 (fun d hd => by rw [hx] at hd; cases hd; exact hxw)
  rw [hcm'] at hf
  simp only [Bool.false_eq_true, if_false] at hf
  obtain ⟨r, hr⟩ : ∃ r, r = b.take (trimLoop (wordsOf b) (b.map Char.toLower)).length := ⟨_, rfl⟩
  rw [← hr] at hf
  have hp : r <+: b := hr ▸ List.take_prefix _ _
  have hlow : r.map Char.toLower = trimLoop (wordsOf b) (b.map Char.toLower) := by
    rw [hr, List.map_take]
    exact (List.prefix_iff_eq_take.mp (trimLoop_prefix (wordsOf b) (b.map Char.toLower)).1).symm
  have hfix : fixName r = r := by
    have no : ∀ s : String, "NewCM".toList <+: s.toList ∨ "NewComputerModern".toList <+: s.toList → r ≠ s.toList := by
      rintro s hs rfl
      exact hcm (hs.imp (fun h => h.trans hp) (fun h => h.trans hp))
    have hnn : r ≠ "Noto Sans Symbols2".toList := by
      rintro rfl
      exact hn (hf.trans rfl)
    unfold fixName
    rw [if_neg hnn, if_neg (no _ (by decide)), if_neg (no _ (by decide)), if_neg (no _ (by decide)), if_neg (no _ (by decide)), if_neg]
    rintro (h | h)
    · exact no _ (by decide) h
    · exact no _ (by decide) h
  rw [hf, hfix]
  refine ⟨hp, ?_⟩
  rintro a c st hc ⟨l, hl, hlw, e⟩ rfl
  have hs := (sep_iff c).mpr hc
  rw [List.map_append, List.map_cons, sep_lower hs, e] at hlow
  exact trimLoop_done (wordsOf_ok b) hs hl (fun w hw => (mem_words b w).mpr (hlw w hw)) hlow.symm

theorem tens_nil {r : Text} (h : r.head? ≠ some '0') : trimTens r = r := by
  unfold trimTens
  split
  · exact absurd rfl h
  · rfl

theorem tens_many (k : Nat) {r : Text} (h : r.head? ≠ some '0') : trimTens ((List.replicate k "01".toList).flatten ++ r) = r := by
  induction k with
  | zero => exact tens_nil h
  | succ k ih =>
    rw [List.replicate_succ, List.flatten_cons, List.append_assoc]
    exact ih

theorem tens_reverse (k : Nat) : ((List.replicate k "10".toList).flatten).reverse = (List.replicate k "01".toList).flatten := by
  rw [List.reverse_flatten, List.map_replicate, List.reverse_replicate]
  rfl

theorem not_word_zero {ws : List String} (h : ∀ w ∈ ws, w.toList ≠ [] ∧ '0' ∉ w.toList) {t : Text} (ht : t.getLast? = some '0') :
    stripWord ws t = none := by
  cases e : stripWord ws t with
  | none => rfl
  | some s =>
    obtain ⟨w, hw, rfl⟩ := stripWord_some e
    obtain ⟨hne, h0⟩ := h w hw
    rw [List.getLast?_append] at ht
    cases hg : w.toList.getLast? with
    | none => exact absurd (List.getLast?_eq_none_iff.mp hg) hne
    | some d =>
      rw [hg] at ht
      simp at ht
      subst ht
      exact absurd (List.mem_of_getLast? hg) h0

/-- `math` ends with a word for thin, but nothing is between it and the rest of the name. -/
theorem math_kept : trimLoop (suffixes ++ ["book"]) "newcomputermodernmath".toList = "newcomputermodernmath".toList := by
  have e : stripAll (suffixes ++ ["book"]) "newcomputermodernmath".toList = "newcomputermodernma".toList := by
    have h := stripAll_append book_ok (w := "th") (by decide) "newcomputermodernma".toList
    exact h.trans (stripAll_none (by decide +kernel))
  have hr : round (suffixes ++ ["book"]) "newcomputermodernmath".toList = "newcomputermodernmath".toList := by
    unfold round
    rw [e]
    decide +kernel
  rw [trimLoop_eq, hr]
  split
  · rw [if_neg (Nat.lt_irrefl _)]
  · rfl

/-- **C163.** The fonts of New Computer Modern have readable names, whatever their size of ten points is written like. -/
theorem modern_named (k : Nat) {s r : String} (h : (s, r) ∈ modernNames) :
    typographicFamily (s.toList ++ (List.replicate k "10".toList).flatten) = r.toList := by
  have all : ∀ p ∈ modernNames, isNewCM p.1.toList = true ∧
      (stripWord (suffixes ++ ["book"]) (p.1.toList.map Char.toLower) = none ∨ p.1.toList.map Char.toLower = "newcomputermodernmath".toList) ∧
      p.1.toList.reverse.head? ≠ some '0' ∧ fixName p.1.toList = p.2.toList ∧ p.1.toList.head? = some 'N' ∧
      (p.1.toList.getLast?.map Pages.isWhitespace) = some false := by decide +kernel
  obtain ⟨h1, h2, h3, h4, h5, h6⟩ := all _ h
  simp only at h1 h2 h3 h4 h5 h6
  have hcm : isNewCM (s.toList ++ (List.replicate k "10".toList).flatten) = true := by
    rw [newcm_iff] at h1 ⊢
    exact h1.imp (fun h => h.trans (List.prefix_append _ _)) (fun h => h.trans (List.prefix_append _ _))
  have hlast : k = 0 ∨ (s.toList ++ (List.replicate k "10".toList).flatten).getLast? = some '0' := by
    cases k with
    | zero => exact .inl rfl
    | succ k =>
      right
      rw [List.replicate_succ', List.flatten_append]
      simp [List.getLast?_append]
  rw [family_eq (head_append ⟨'N', h5, by decide, by decide⟩)]
  · rw [hcm]
    have hw : wordsOf (s.toList ++ (List.replicate k "10".toList).flatten) = suffixes ++ ["book"] := by unfold wordsOf; rw [hcm]; rfl
    have hloop : trimLoop (suffixes ++ ["book"]) ((s.toList ++ (List.replicate k "10".toList).flatten).map Char.toLower) =
        (s.toList ++ (List.replicate k "10".toList).flatten).map Char.toLower := by
      rcases hlast with rfl | hl
      · simp only [List.replicate_zero, List.flatten_nil, List.append_nil]
        rcases h2 with h2 | h2
        · rw [trimLoop_eq, h2]; rfl
        · rw [h2]; exact math_kept
      · rw [trimLoop_eq, not_word_zero (by decide +kernel) (by rw [List.getLast?_map, hl]; rfl)]
        rfl
    rw [hw, hloop]
    simp only [if_true, List.length_map, List.take_length]
    rw [List.reverse_append, tens_reverse, tens_many k h3, List.reverse_reverse, h4]
  · intro d hd
    rcases hlast with rfl | hl
    · simp only [List.replicate_zero, List.flatten_nil, List.append_nil] at hd
      rw [hd] at h6
      simpa using h6
    · rw [hl] at hd; cases hd; decide

/-- **C163.** The family is found from the name of the family, and for Noto and New Computer Modern from the full name. -/
theorem family_source {family full r : Text} (h : familyOf family full = some r) :
    (("Noto".toList <+: family ∨ ComputerModern family) → r = typographicFamily full) ∧
    (¬ ("Noto".toList <+: family ∨ ComputerModern family) → r = typographicFamily family) := by
  unfold familyOf at h
  have e : ("Noto".toList.isPrefixOf family || isNewCM family) = true ↔ ("Noto".toList <+: family ∨ ComputerModern family) := by
    rw [Bool.or_eq_true, List.isPrefixOf_iff_prefix, newcm_iff]
  by_cases hp : "Noto".toList <+: family ∨ ComputerModern family
  · refine ⟨fun _ => ?_, fun h => absurd hp h⟩
    simp only [e.mpr hp, if_true] at h
    split at h
    · cases h
    · exact (Option.some.inj h).symm
  · refine ⟨fun h => absurd h hp, fun _ => ?_⟩
    have : ("Noto".toList.isPrefixOf family || isNewCM family) = false := by rw [← Bool.not_eq_true, e]; exact hp
    simp only [this, Bool.false_eq_true, if_false] at h
    split at h
    · cases h
    · exact (Option.some.inj h).symm

/-- **C163.** A font without the name its family is found from is refused. -/
theorem refused_iff (family full : Text) : familyOf family full = none ↔
    (("Noto".toList <+: family ∨ ComputerModern family) ∧ full = []) ∨ (¬ ("Noto".toList <+: family ∨ ComputerModern family) ∧ family = []) := by
  unfold familyOf
  have e : ("Noto".toList.isPrefixOf family || isNewCM family) = true ↔ ("Noto".toList <+: family ∨ ComputerModern family) := by
    rw [Bool.or_eq_true, List.isPrefixOf_iff_prefix, newcm_iff]
  by_cases h : "Noto".toList <+: family ∨ ComputerModern family
  · simp only [e.mpr h, if_true, h, true_and, not_true_eq_false, false_and, or_false]
    split <;> simp_all
  · have : ("Noto".toList.isPrefixOf family || isNewCM family) = false := by rw [← Bool.not_eq_true, e]; exact h
    simp only [this, Bool.false_eq_true, if_false, h, false_and, not_false_eq_true, true_and, false_or]
    split <;> simp_all

/-- **C163, violated.** A name of nothing but a style behind a hyphen leaves no family at all. -/
theorem no_family {c : Char} (hc : c = '-' ∨ c = '_') {st : Text} (hst : Styles [] st) : typographicFamily (c :: st) = [] := by
  have hs : c ∈ separators := by rcases hc with rfl | rfl <;> decide
  obtain ⟨hne, hw⟩ := styles_not_blank hst
  have hcm : isNewCM (c :: st) = false := by
    have := cm_behind (b := []) (t := st) hs
    exact this.trans (by decide)
  have hhead : ∃ x, (c :: st).head? = some x ∧ Pages.isWhitespace x = false ∧ x ≠ '.' := by
    rcases hc with rfl | rfl
    · exact ⟨_, rfl, by decide, by decide⟩
    · exact ⟨_, rfl, by decide, by decide⟩
  rw [family_eq hhead (by simpa using between_not (b := []) (t := [c]) hne hw), hcm]
  obtain ⟨l, hl, hlw, e⟩ := hst
  have hw0 : wordsOf (c :: st) = wordsOf [] := by unfold wordsOf; rw [hcm]; rfl
  have hlw' : ∀ w ∈ l, w ∈ wordsOf [] := fun w hw => (mem_words [] w).mpr (hlw w hw)
  have ok := wordsOf_ok []
  have : trimLoop (wordsOf (c :: st)) ((c :: st).map Char.toLower) = [] := by
    rw [hw0, List.map_cons, sep_lower hs, e]
    have e2 : c :: l.flatMap String.toList = ([] ++ [c]) ++ l.flatMap String.toList := rfl
    rw [e2, trimLoop_step (b := []) (flatMap_some hl hlw' _)]
    · rw [trimLoop_eq]; rfl
    · apply round_plain hs
      · rw [stripAll_words ok _ l rfl hlw', stripAll_none (stripWord_sep ok hs)]
      · intro a c m _ _ h
        exact absurd h (by simp)
    · simp
  rw [this]
  rfl

/-- **C163, violated.** A family name may not be its own family name: with two blanks before the style, one of them stays. -/
theorem twice_differs : ∃ b, typographicFamily (typographicFamily b) ≠ typographicFamily b := by
  refine ⟨"Foo  Bold".toList, ?_⟩
  have e1 : typographicFamily "Foo  Bold".toList = "Foo ".toList := by
    have hs : Styles "Foo ".toList "Bold".toList := ⟨["bold"], by decide, fun w hw => .inl (by revert w; decide), by decide⟩
    obtain ⟨hne, hw⟩ := styles_not_blank hs
    have hh : ∃ c, ("Foo ".toList ++ ' ' :: "Bold".toList).head? = some c ∧ Pages.isWhitespace c = false ∧ c ≠ '.' :=
      ⟨'F', rfl, by decide, by decide⟩
    have hl : trimLoop suffixes ("Foo  Bold".toList.map Char.toLower) = "foo ".toList := by
      have e2 : "Foo  Bold".toList.map Char.toLower = ("foo ".toList ++ [' ']) ++ ["bold"].flatMap String.toList := by decide
      rw [e2, trimLoop_step (b := "foo ".toList) (flatMap_some (by decide) (by decide) _)]
      · rw [trimLoop_eq]
        have : stripWord suffixes "foo ".toList = none := by decide +kernel
        rw [this]; rfl
      · apply round_plain (c := ' ') (by decide)
        · rw [stripAll_words suffixes_ok _ ["bold"] rfl (by decide), stripAll_none (stripWord_sep suffixes_ok (by decide))]
        · intro a c m hc hm e
          have : stripWord modifiers "foo ".toList = none := by decide +kernel
          have hs := stripMod (a := a) hc hm
          rw [← e, this] at hs
          cases hs
      · decide
    have hcm : isNewCM "Foo  Bold".toList = false := by decide
    have := family_eq (b := "Foo  Bold".toList) hh (by intro c hc; cases hc; decide)
    rw [this]
    simp only [wordsOf, hcm, Bool.false_eq_true, if_false, hl]
    decide
  have e2 : typographicFamily "Foo ".toList = "Foo".toList := by
    have hn : stripWord suffixes "foo".toList = none := by decide +kernel
    have ht : Pages.trim "Foo ".toList = "Foo".toList := by decide
    have hcm : isNewCM "Foo ".toList = false := by decide
    unfold typographicFamily
    simp only [ht, hcm, Bool.false_eq_true, if_false]
    have hd : ("Foo".toList.dropWhile fun x => decide (x = '.')) = "Foo".toList := by decide
    rw [hd]
    have hl : "Foo".toList.map Char.toLower = "foo".toList := by decide
    rw [hl, trimLoop_eq, hn]
    decide
  rw [e1, e2]
  decide

example : Neat "Source Sans Pro".toList := ⟨⟨'S', rfl, by decide, by decide⟩, 'o', rfl, by decide⟩
example : Styles [] "BoldItalic".toList := ⟨["bold", "italic"], by decide, fun w hw => .inl (by revert w; decide), by decide⟩
example : Modifier "Semi".toList := ⟨"semi", by decide, by decide⟩

/-! ## C164: variants -/

theorem weightLoop_style {style ps full : Text} {sec : Option Weight} {ws : List (String × Weight)}
    (h : ∃ p ∈ ws, Says style p.1) : ∃ pre p post, ws = pre ++ p :: post ∧ (∀ q ∈ pre, ¬ Says style q.1) ∧ Says style p.1 ∧
      weightLoop style ps full sec ws = p.2 := by
  induction ws generalizing sec with
  | nil => obtain ⟨p, hp, -⟩ := h; cases hp
  | cons p ws ih =>
    by_cases hp : Says style p.1
    · refine ⟨[], p, ws, rfl, by simp, hp, ?_⟩
      rw [weightLoop, if_pos ((has_says _ _).mpr hp)]
    · have h' : ∃ q ∈ ws, Says style q.1 := by
        obtain ⟨q, hq, hs⟩ := h
        rcases List.mem_cons.mp hq with rfl | hq
        · exact absurd hs hp
        · exact ⟨q, hq, hs⟩
      have hf : ¬ has style p.1.toList = true := fun h => hp ((has_says _ _).mp h)
      rw [weightLoop, if_neg hf]
      split
      · obtain ⟨pre, q, post, e, hpre, hq, hr⟩ := ih (sec := some p.2) h'
        exact ⟨p :: pre, q, post, by rw [e]; rfl, by simpa [hp] using hpre, hq, hr⟩
      · obtain ⟨pre, q, post, e, hpre, hq, hr⟩ := ih (sec := sec) h'
        exact ⟨p :: pre, q, post, by rw [e]; rfl, by simpa [hp] using hpre, hq, hr⟩

theorem weightLoop_names {style ps full : Text} {sec : Option Weight} {ws : List (String × Weight)}
    (h : ∀ p ∈ ws, ¬ Says style p.1) :
    (∃ pre p post, ws = pre ++ p :: post ∧ (Says ps p.1 ∨ Says full p.1) ∧ (∀ q ∈ post, ¬ Says ps q.1 ∧ ¬ Says full q.1) ∧
      weightLoop style ps full sec ws = p.2) ∨
    ((∀ p ∈ ws, ¬ Says ps p.1 ∧ ¬ Says full p.1) ∧ weightLoop style ps full sec ws = sec.getD .regular) := by
  induction ws generalizing sec with
  | nil => exact .inr ⟨by simp, rfl⟩
  | cons p ws ih =>
    have hf : ¬ has style p.1.toList = true := fun h' => h p (by simp) ((has_says _ _).mp h')
    rw [weightLoop, if_neg hf]
    have h' : ∀ q ∈ ws, ¬ Says style q.1 := fun q hq => h q (by simp [hq])
    by_cases hp : Says ps p.1 ∨ Says full p.1
    · have hc : (has ps p.1.toList || has full p.1.toList) = true := by
        rw [Bool.or_eq_true, has_says, has_says]; exact hp
      rw [if_pos hc]
      rcases ih (sec := some p.2) h' with ⟨pre, q, post, e, hq, hpost, hr⟩ | ⟨hn, hr⟩
      · exact .inl ⟨p :: pre, q, post, by rw [e]; rfl, hq, hpost, hr⟩
      · exact .inl ⟨[], p, ws, rfl, hp, hn, by rw [hr]; rfl⟩
    · have hc : ¬ (has ps p.1.toList || has full p.1.toList) = true := by
        rw [Bool.or_eq_true, has_says, has_says]; exact hp
      rw [if_neg hc]
      rw [not_or] at hp
      rcases ih (sec := sec) h' with ⟨pre, q, post, e, hq, hpost, hr⟩ | ⟨hn, hr⟩
      · exact .inl ⟨p :: pre, q, post, by rw [e]; rfl, hq, hpost, hr⟩
      · refine .inr ⟨?_, hr⟩
        intro q hq
        rcases List.mem_cons.mp hq with rfl | hq
        · exact hp
        · exact hn q hq

theorem weight_word {p : String × Weight} (h : p ∈ weightWords) : p.1 ∈ weightNames p.2 := by
  have : ∀ p ∈ weightWords, p.1 ∈ weightNames p.2 := by decide +kernel
  exact this p h

theorem weight_words (w : Weight) : ∀ n ∈ weightNames w, (n, w) ∈ weightWords := by
  cases w <;> decide +kernel

theorem infer_some {n : Names} {i : Info} (h : inferInfo n = some i) :
    familyOf n.family n.full = some i.family ∧
    i.weight = weightLoop (n.style.map Char.toLower) (n.postscript.map Char.toLower) (n.full.map Char.toLower) none weightWords ∧
    i.stretch = stretchLoop (n.style.map Char.toLower) stretchWords := by
  unfold inferInfo at h
  cases hf : familyOf n.family n.full with
  | none => rw [hf] at h; cases h
  | some f =>
    rw [hf] at h
    simp only [Option.some.injEq] at h
    subst h
    exact ⟨rfl, rfl, rfl⟩

/-- **C164.** A weight is only guessed if one of the names has a word for it, and is regular if none has one.
Missing: extra bold styles and extra light names, which are never found. -/
theorem weight_named_partial {n : Names} {i : Info} (h : inferInfo n = some i) :
    (NamesWeight n.style i.weight ∨ NamesWeight n.postscript i.weight ∨ NamesWeight n.full i.weight) ∨
    (i.weight = .regular ∧ ∀ w, ¬ NamesWeight n.style w ∧ ¬ NamesWeight n.postscript w ∧ ¬ NamesWeight n.full w) := by
  obtain ⟨-, hw, -⟩ := infer_some h
  by_cases hs : ∃ p ∈ weightWords, Says (n.style.map Char.toLower) p.1
  · obtain ⟨pre, p, post, e, -, hp, hr⟩ := weightLoop_style (ps := n.postscript.map Char.toLower) (full := n.full.map Char.toLower) (sec := none) hs
    rw [hr] at hw
    exact .inl (.inl ⟨p.1, by rw [hw]; exact weight_word (by rw [e]; simp), hp⟩)
  · have hs' : ∀ p ∈ weightWords, ¬ Says (n.style.map Char.toLower) p.1 := fun p hp hh => hs ⟨p, hp, hh⟩
    rcases weightLoop_names (ps := n.postscript.map Char.toLower) (full := n.full.map Char.toLower) (sec := none) hs' with
      ⟨pre, p, post, e, hp, -, hr⟩ | ⟨hn, hr⟩
    · rw [hr] at hw
      have hm : p.1 ∈ weightNames i.weight := by rw [hw]; exact weight_word (by rw [e]; simp)
      rcases hp with hp | hp
      · exact .inl (.inr (.inl ⟨p.1, hm, hp⟩))
      · exact .inl (.inr (.inr ⟨p.1, hm, hp⟩))
    · refine .inr ⟨by rw [hw, hr]; rfl, fun w => ⟨?_, ?_, ?_⟩⟩
      · rintro ⟨x, hx, hy⟩; exact hs' _ (weight_words w x hx) hy
      · rintro ⟨x, hx, hy⟩; exact (hn _ (weight_words w x hx)).1 hy
      · rintro ⟨x, hx, hy⟩; exact (hn _ (weight_words w x hx)).2 hy

/-- **C164.** If the style has a word for a weight, the other names do not matter, and the weight is one the style names. -/
theorem style_decides {n : Names} {i : Info} (h : inferInfo n = some i) {w : Weight} (hw : NamesWeight n.style w) :
    NamesWeight n.style i.weight ∧
    ∀ n' i', n'.style = n.style → inferInfo n' = some i' → i'.weight = i.weight := by
  obtain ⟨x, hx, hs⟩ := hw
  have hex : ∃ p ∈ weightWords, Says (n.style.map Char.toLower) p.1 := ⟨_, weight_words w x hx, hs⟩
  have indep : ∀ (l : List (String × Weight)), (∃ p ∈ l, Says (n.style.map Char.toLower) p.1) → ∀ ps full ps' full' sec sec',
      weightLoop (n.style.map Char.toLower) ps full sec l = weightLoop (n.style.map Char.toLower) ps' full' sec' l := by
    intro l
    induction l with
    | nil => rintro ⟨p, hp, -⟩; cases hp
    | cons p l ih =>
      intro hex ps full ps' full' sec sec'
      rw [weightLoop, weightLoop]
      by_cases hp : has (n.style.map Char.toLower) p.1.toList = true
      · rw [if_pos hp, if_pos hp]
      · rw [if_neg hp, if_neg hp]
        have hex' : ∃ q ∈ l, Says (n.style.map Char.toLower) q.1 := by
          obtain ⟨q, hq, hs⟩ := hex
          rcases List.mem_cons.mp hq with rfl | hq
          · exact absurd ((has_says _ _).mpr hs) hp
          · exact ⟨q, hq, hs⟩
        split <;> split <;> exact ih hex' _ _ _ _ _ _
  obtain ⟨-, hi, -⟩ := infer_some h
  constructor
  · obtain ⟨pre, p, post, e, -, hp, hr⟩ := weightLoop_style (ps := n.postscript.map Char.toLower) (full := n.full.map Char.toLower) (sec := none) hex
    rw [hr] at hi
    exact ⟨p.1, by rw [hi]; exact weight_word (by rw [e]; simp), hp⟩
  · intro n' i' hst h'
    obtain ⟨-, hi', -⟩ := infer_some h'
    rw [hi, hi', hst]
    exact indep weightWords hex _ _ _ _ _ _

theorem before_bold {pre post : List (String × Weight)} {p : String × Weight} (h : weightWords = pre ++ p :: post) (hp : p.2 = .extrabold) :
    ("bold", Weight.bold) ∈ pre := by
  have hl : pre.length < weightWords.length := by rw [h]; simp
  have hg : weightWords[pre.length]? = some p := by rw [h]; simp
  have hpre : pre = weightWords.take pre.length := by rw [h]; simp
  rw [hpre]
  have key : ∀ k, k < weightWords.length → ∀ q, weightWords[k]? = some q → q.2 = .extrabold → ("bold", Weight.bold) ∈ weightWords.take k := by
    intro k hk
    have : ∀ k < 15, ∀ q ∈ weightWords[k]?, q.2 = .extrabold → ("bold", Weight.bold) ∈ weightWords.take k := by decide +kernel
    intro q hq
    exact this k hk q hq
  exact key pre.length hl p hg hp

theorem after_extralight {pre post : List (String × Weight)} {p : String × Weight} (h : weightWords = pre ++ p :: post) (hp : p.2 = .extralight) :
    ("light", Weight.light) ∈ post := by
  have hl : pre.length < weightWords.length := by rw [h]; simp
  have hg : weightWords[pre.length]? = some p := by rw [h]; simp
  have hpost : post = weightWords.drop (pre.length + 1) := by rw [h]; simp
  rw [hpost]
  have : ∀ k < 15, ∀ q ∈ weightWords[k]?, q.2 = .extralight → ("light", Weight.light) ∈ weightWords.drop (k + 1) := by decide +kernel
  exact this pre.length hl p hg hp

/-- **C164, violated.** A font whose style is extra bold is taken for a bold one, or for something else that its style names. -/
theorem extra_bold {n : Names} {i : Info} (h : inferInfo n = some i) (hs : NamesWeight n.style .extrabold) : i.weight ≠ .extrabold := by
  intro hi
  obtain ⟨x, hx, hy⟩ := hs
  obtain ⟨-, hw, -⟩ := infer_some h
  have hex : ∃ p ∈ weightWords, Says (n.style.map Char.toLower) p.1 := ⟨_, weight_words _ x hx, hy⟩
  obtain ⟨pre, p, post, e, hpre, hp, hr⟩ := weightLoop_style (ps := n.postscript.map Char.toLower) (full := n.full.map Char.toLower) (sec := none) hex
  rw [hr, hi] at hw
  have hb : Says (n.style.map Char.toLower) "bold" := by
    refine hy.sub ?_
    revert hx
    have : ∀ x ∈ weightNames .extrabold, has x.toList "bold".toList = true := by decide +kernel
    exact this x
  exact hpre _ (before_bold e hw.symm) hb

/-- **C164, violated.** A font that is extra light by its name alone is taken for a light one, or for something else that it is named. -/
theorem extra_light {n : Names} {i : Info} (h : inferInfo n = some i) (hs : ∀ w, ¬ NamesWeight n.style w) : i.weight ≠ .extralight := by
  intro hi
  obtain ⟨-, hw, -⟩ := infer_some h
  have hs' : ∀ p ∈ weightWords, ¬ Says (n.style.map Char.toLower) p.1 := fun p hp hh => hs p.2 ⟨p.1, weight_word hp, hh⟩
  rcases weightLoop_names (ps := n.postscript.map Char.toLower) (full := n.full.map Char.toLower) (sec := none) hs' with
    ⟨pre, p, post, e, hp, hpost, hr⟩ | ⟨hn, hr⟩
  · rw [hr, hi] at hw
    have hm : p.1 ∈ weightNames .extralight := by rw [hw]; exact weight_word (by rw [e]; simp)
    have hsub : has p.1.toList "light".toList = true := by
      have : ∀ x ∈ weightNames .extralight, has x.toList "light".toList = true := by decide +kernel
      exact this _ hm
    have := hpost _ (after_extralight e hw.symm)
    rcases hp with hp | hp
    · exact this.1 (hp.sub hsub)
    · exact this.2 (hp.sub hsub)
  · rw [hr, hi] at hw; cases hw

theorem stretchLoop_spec {style : Text} {l : List (String × Stretch)} :
    (∃ pre p post, l = pre ++ p :: post ∧ (∀ q ∈ pre, ¬ Says style q.1) ∧ Says style p.1 ∧ stretchLoop style l = p.2) ∨
    ((∀ p ∈ l, ¬ Says style p.1) ∧ stretchLoop style l = .normal) := by
  induction l with
  | nil => exact .inr ⟨by simp, rfl⟩
  | cons p l ih =>
    rw [stretchLoop]
    by_cases hp : Says style p.1
    · rw [if_pos ((has_says _ _).mpr hp)]
      exact .inl ⟨[], p, l, rfl, by simp, hp, rfl⟩
    · rw [if_neg (fun h => hp ((has_says _ _).mp h))]
      rcases ih with ⟨pre, q, post, e, hpre, hq, hr⟩ | ⟨hn, hr⟩
      · exact .inl ⟨p :: pre, q, post, by rw [e]; rfl, by simpa [hp] using hpre, hq, hr⟩
      · exact .inr ⟨by simpa [hp] using hn, hr⟩

theorem stretch_words (x : Stretch) : ∀ n ∈ stretchNames x, (n, x) ∈ stretchWords := by
  cases x <;> decide +kernel

theorem stretch_word {p : String × Stretch} (h : p ∈ stretchWords) : p.1 ∈ stretchNames p.2 := by
  have : ∀ p ∈ stretchWords, p.1 ∈ stretchNames p.2 := by decide +kernel
  exact this p h

/-- **C164.** A stretch is only guessed if the style has a word for it, and is normal if it has none.
Missing: semi-condensed, extra-expanded and ultra-expanded fonts, which are never found. -/
theorem stretch_named_partial {n : Names} {i : Info} (h : inferInfo n = some i) :
    NamesStretch n.style i.stretch ∨ (i.stretch = .normal ∧ ∀ x, ¬ NamesStretch n.style x) := by
  obtain ⟨-, -, hs⟩ := infer_some h
  rcases stretchLoop_spec (style := n.style.map Char.toLower) (l := stretchWords) with ⟨pre, p, post, e, -, hp, hr⟩ | ⟨hn, hr⟩
  · rw [hr] at hs
    exact .inl ⟨p.1, by rw [hs]; exact stretch_word (by rw [e]; simp), hp⟩
  · rw [hr] at hs
    refine .inr ⟨hs, ?_⟩
    rintro x ⟨y, hy, hz⟩
    exact hn _ (stretch_words x y hy) hz

/-- **C164, violated.** No font is ever taken for semi-condensed, extra- or ultra-expanded: the words for condensed and expanded are
in those, and are looked for before. -/
theorem never_stretched {n : Names} {i : Info} (h : inferInfo n = some i) :
    i.stretch ≠ .semiCondensed ∧ i.stretch ≠ .extraExpanded ∧ i.stretch ≠ .ultraExpanded := by
  obtain ⟨-, -, hs⟩ := infer_some h
  rcases stretchLoop_spec (style := n.style.map Char.toLower) (l := stretchWords) with ⟨pre, p, post, e, hpre, hp, hr⟩ | ⟨hn, hr⟩
  · rw [hr] at hs
    have hl : pre.length < stretchWords.length := by rw [e]; simp
    have hg : stretchWords[pre.length]? = some p := by rw [e]; simp
    have hpre' : pre = stretchWords.take pre.length := by rw [e]; simp
    have key : ∀ k < 21, ∀ q ∈ stretchWords[k]?, (q.2 = .semiCondensed ∨ q.2 = .extraExpanded ∨ q.2 = .ultraExpanded) →
        (stretchWords.take k).any (fun r => has q.1.toList r.1.toList) = true := by decide +kernel
    have bad : ¬ (p.2 = .semiCondensed ∨ p.2 = .extraExpanded ∨ p.2 = .ultraExpanded) := by
      intro hb
      have := key pre.length hl p hg hb
      rw [← hpre', List.any_eq_true] at this
      obtain ⟨r, hr, hh⟩ := this
      exact hpre r hr (hp.sub hh)
    rw [hs]
    exact ⟨fun h => bad (.inl h), fun h => bad (.inr (.inl h)), fun h => bad (.inr (.inr h))⟩
  · rw [hr] at hs; rw [hs]; exact ⟨by decide, by decide, by decide⟩

/-- **C164.** A font is italic just if its full name says so, oblique if it says that or slanted and not italic. -/
theorem style_iff {n : Names} {i : Info} (h : inferInfo n = some i) :
    (i.style = .italic ↔ Says (n.full.map Char.toLower) "italic") ∧
    (i.style = .oblique ↔ ¬ Says (n.full.map Char.toLower) "italic" ∧
      (Says (n.full.map Char.toLower) "oblique" ∨ Says (n.full.map Char.toLower) "slanted")) := by
  unfold inferInfo at h
  cases hf : familyOf n.family n.full with
  | none => rw [hf] at h; cases h
  | some f =>
    rw [hf] at h
    simp only [Option.some.injEq] at h
    subst h
    simp only [← has_says]
    cases has (n.full.map Char.toLower) "italic".toList <;> cases has (n.full.map Char.toLower) "oblique".toList <;>
      cases has (n.full.map Char.toLower) "slanted".toList <;> simp

/-- **C164.** Flags: monospaced if a name says `mono`, with serifs if a name says `serif` and not `mono`. -/
theorem flags_iff {n : Names} {i : Info} (h : inferInfo n = some i) :
    (i.monospace = true ↔ ∃ s ∈ [n.style, n.postscript, n.full], Says (s.map Char.toLower) "mono") ∧
    (i.serif = true ↔ ∃ s ∈ [n.style, n.postscript, n.full], ¬ Says (s.map Char.toLower) "mono" ∧ Says (s.map Char.toLower) "serif") := by
  unfold inferInfo at h
  cases hf : familyOf n.family n.full with
  | none => rw [hf] at h; cases h
  | some f =>
    rw [hf] at h
    simp only [Option.some.injEq] at h
    subst h
    simp only [← has_says]
    constructor
    · simp
    · simp

/-- **C164, violated.** A font that is named as one without serifs is taken for one with serifs. -/
theorem sans_serif {n : Names} {i : Info} (h : inferInfo n = some i) (hs : Says (n.full.map Char.toLower) "sans-serif")
    (hm : ¬ Says (n.full.map Char.toLower) "mono") : i.serif = true := by
  rw [(flags_iff h).2]
  exact ⟨n.full, by simp, hm, hs.sub (by decide +kernel)⟩

/-- **C164, violated.** What the style says of italics is not looked at. -/
theorem style_not_asked : ∃ n i, inferInfo n = some i ∧ Says (n.style.map Char.toLower) "italic" ∧ i.style = .normal := by
  cases h : inferInfo ⟨"Foo".toList, "Foo".toList, "Foo".toList, "Italic".toList⟩ with
  | none =>
    unfold inferInfo at h
    split at h
    · rename_i hf
      exact absurd hf (by simp [refused_iff, ComputerModern])
    · cases h
  | some i =>
    refine ⟨_, i, h, ⟨[], [], by decide⟩, ?_⟩
    have hs := style_iff h
    cases e : i.style with
    | normal => rfl
    | italic =>
      have := hs.1.mp e
      rw [← has_says] at this
      exact absurd this (by decide +kernel)
    | oblique =>
      have := (hs.2.mp e).2
      rw [← has_says, ← has_says] at this
      exact absurd this (by decide +kernel)

end Tinymist.WebFonts
