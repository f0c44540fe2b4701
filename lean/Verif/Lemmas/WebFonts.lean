import Verif.Spec.WebFonts

/-! # Lemmas about the names of fonts -/

namespace Tinymist.WebFonts

/-! ## Words at the end -/

theorem stripSuffix_iff (t w s : Text) : stripSuffix t w = some s ↔ t = s ++ w := by
  unfold stripSuffix
  constructor
  · intro h
    split at h
    · rename_i hs
      obtain ⟨x, rfl⟩ := List.isSuffixOf_iff_suffix.mp hs
      simp at h
      rw [← h]
    · cases h
  · rintro rfl
    rw [if_pos (List.isSuffixOf_iff_suffix.mpr (List.suffix_append _ _))]
    simp

theorem stripWord_some {ws : List String} {t s : Text} (h : stripWord ws t = some s) : ∃ w ∈ ws, t = s ++ w.toList := by
  obtain ⟨w, hw, h⟩ := List.exists_of_findSome?_eq_some h
  exact ⟨w, hw, (stripSuffix_iff _ _ _).mp h⟩

theorem stripWord_isSome {ws : List String} {s : Text} {w : String} (hw : w ∈ ws) : (stripWord ws (s ++ w.toList)).isSome = true := by
  unfold stripWord
  rw [List.findSome?_isSome_iff]
  exact ⟨w, hw, by rw [(stripSuffix_iff _ _ _).mpr rfl]; rfl⟩

/-- Words of which none is the end of another. -/
structure WordsOk (ws : List String) : Prop where
  ne : ∀ w ∈ ws, w.toList ≠ []
  nosep : ∀ w ∈ ws, ∀ c ∈ w.toList, c ∉ separators
  free : ∀ w ∈ ws, ∀ v ∈ ws, w.toList.isSuffixOf v.toList = true → w = v

theorem suffixes_ok : WordsOk suffixes := ⟨by decide +kernel, by decide +kernel, by decide +kernel⟩

theorem book_ok : WordsOk (suffixes ++ ["book"]) := ⟨by decide +kernel, by decide +kernel, by decide +kernel⟩

theorem mods_nosep : ∀ w ∈ modifiers, ∀ c ∈ w.toList, c ∉ separators := by decide +kernel

theorem stripWord_append {ws : List String} (ok : WordsOk ws) {w : String} (hw : w ∈ ws) (s : Text) :
    stripWord ws (s ++ w.toList) = some s := by
  obtain ⟨x, hx⟩ := Option.isSome_iff_exists.mp (stripWord_isSome (s := s) hw)
  obtain ⟨v, hv, e⟩ := stripWord_some hx
  have hvw : v = w := by
    have h1 : w.toList <:+ s ++ w.toList := List.suffix_append _ _
    have h2 : v.toList <:+ s ++ w.toList := e ▸ List.suffix_append _ _
    rcases Nat.le_total v.toList.length w.toList.length with h | h
    · exact ok.free v hv w hw (List.isSuffixOf_iff_suffix.mpr (List.suffix_of_suffix_length_le h2 h1 h))
    · exact (ok.free w hw v hv (List.isSuffixOf_iff_suffix.mpr (List.suffix_of_suffix_length_le h1 h2 h))).symm
  subst hvw
  rw [hx, List.append_cancel_right e]

theorem last_word {ws : List String} (ok : WordsOk ws) {w : String} (hw : w ∈ ws) {s b : Text} {c : Char} (hc : c ∈ separators) :
    b ++ [c] ≠ s ++ w.toList := by
  intro e
  have hne := ok.ne w hw
  have hl : (b ++ [c]).getLast? = (s ++ w.toList).getLast? := by rw [e]
  rw [List.getLast?_append, List.getLast?_append] at hl
  cases hg : w.toList.getLast? with
  | none => exact hne (List.getLast?_eq_none_iff.mp hg)
  | some d =>
    rw [hg] at hl
    simp at hl
    exact ok.nosep w hw d (List.mem_of_getLast? hg) (hl ▸ hc)

theorem stripWord_sep {ws : List String} (ok : WordsOk ws) {b : Text} {c : Char} (hc : c ∈ separators) : stripWord ws (b ++ [c]) = none := by
  cases h : stripWord ws (b ++ [c]) with
  | none => rfl
  | some s =>
    obtain ⟨w, hw, e⟩ := stripWord_some h
    exact absurd e (last_word ok hw hc)

theorem stripAll_append {ws : List String} (ok : WordsOk ws) {w : String} (hw : w ∈ ws) (s : Text) :
    stripAll ws (s ++ w.toList) = stripAll ws s := by
  rw [stripAll, stripWord_append ok hw]
  have := List.length_pos_iff.mpr (ok.ne w hw)
  simp only [List.length_append]
  rw [if_pos (by omega)]

theorem stripAll_none {ws : List String} {t : Text} (h : stripWord ws t = none) : stripAll ws t = t := by
  rw [stripAll, h]

theorem stripAll_words {ws : List String} (ok : WordsOk ws) : ∀ (n : Nat) (l : List String), l.length = n → (∀ w ∈ l, w ∈ ws) → ∀ s,
    stripAll ws (s ++ l.flatMap String.toList) = stripAll ws s
  | 0, l, hn, _, s => by
    have := List.length_eq_zero_iff.mp hn
    subst this; simp
  | n + 1, l, hn, hl, s => by
    rcases List.eq_nil_or_concat l with rfl | ⟨r, w, rfl⟩
    · simp at hn
    · simp only [List.concat_eq_append, List.flatMap_append, List.flatMap_cons, List.flatMap_nil, List.append_nil]
      rw [← List.append_assoc, stripAll_append ok (hl w (by simp)), stripAll_words ok n r (by simpa using hn) (fun v hv => hl v (by simp [hv]))]

theorem flatMap_some {ws : List String} {l : List String} (hne : l ≠ []) (hl : ∀ w ∈ l, w ∈ ws) (s : Text) :
    (stripWord ws (s ++ l.flatMap String.toList)).isSome = true := by
  rcases List.eq_nil_or_concat l with rfl | ⟨r, w, rfl⟩
  · exact absurd rfl hne
  · simp only [List.concat_eq_append, List.flatMap_append, List.flatMap_cons, List.flatMap_nil, List.append_nil]
    rw [← List.append_assoc]
    exact stripWord_isSome (hl w (by simp))

theorem stripSep_iff (t s : Text) : stripSep t = some s ↔ ∃ c ∈ separators, t = s ++ [c] := by
  unfold stripSep
  constructor
  · intro h
    split at h
    · rename_i c hc
      split at h
      · rename_i hs
        cases h
        refine ⟨c, by simpa using hs, ?_⟩
        obtain ⟨hne, rfl⟩ := List.getLast?_eq_some_iff_getLast? hc
        exact (List.dropLast_concat_getLast hne).symm
      · cases h
    · cases h
  · rintro ⟨c, hc, rfl⟩
    have : separators.contains c = true := by simpa using hc
    simp only [List.getLast?_append, List.getLast?_singleton, Option.some_or, this, if_true, List.dropLast_concat]
where
  List.getLast?_eq_some_iff_getLast? {t : Text} {c : Char} (h : t.getLast? = some c) : ∃ hne : t ≠ [], c = t.getLast hne := by
    cases t with
    | nil => cases h
    | cons a r => exact ⟨by simp, by rw [List.getLast?_eq_some_getLast (by simp)] at h; exact (Option.some.inj h).symm⟩

theorem nosep_suffix {a m v s : Text} {c : Char} (hv : c ∉ v) (h : a ++ c :: m = s ++ v) : ∃ x, m = x ++ v := by
  rcases List.append_eq_append_iff.mp h with ⟨x, h1, h2⟩ | ⟨x, h1, h2⟩
  · cases x with
    | nil =>
      simp at h2
      exact absurd (by rw [← h2]; simp) hv
    | cons y r =>
      rw [List.cons_append] at h2
      exact ⟨r, (List.cons.inj h2).2⟩
  · exact absurd (by rw [h2]; simp) hv

theorem stripSuffix_behind {a m v : Text} {c : Char} (hv : c ∉ v) :
    stripSuffix (a ++ c :: m) v = (stripSuffix m v).map fun s => a ++ c :: s := by
  cases h : stripSuffix m v with
  | some s =>
    rw [(stripSuffix_iff _ _ _).mp h, Option.map_some]
    exact (stripSuffix_iff _ _ _).mpr (by simp)
  | none =>
    cases h' : stripSuffix (a ++ c :: m) v with
    | none => rfl
    | some s =>
      obtain ⟨x, hx⟩ := nosep_suffix hv ((stripSuffix_iff _ _ _).mp h')
      rw [(stripSuffix_iff _ _ _).mpr hx] at h
      cases h

theorem stripWord_behind {ws : List String} {a m : Text} {c : Char} (h : ∀ w ∈ ws, c ∉ w.toList) :
    stripWord ws (a ++ c :: m) = (stripWord ws m).map fun s => a ++ c :: s := by
  unfold stripWord
  induction ws with
  | nil => rfl
  | cons w ws ih =>
    rw [List.findSome?_cons, List.findSome?_cons, stripSuffix_behind (h w (by simp))]
    cases stripSuffix m w.toList with
    | some s => rfl
    | none => exact ih fun v hv => h v (by simp [hv])

theorem stripMod {a : Text} {c : Char} (hc : c ∈ separators) {m : String} (hm : m ∈ modifiers) :
    stripWord modifiers (a ++ c :: m.toList) = some (a ++ [c]) := by
  rw [stripWord_behind (fun w hw h => mods_nosep w hw c h hc)]
  have : ∀ m ∈ modifiers, stripWord modifiers m.toList = some [] := by decide +kernel
  rw [this m hm]; rfl

/-! ## The loop -/

/-- What a round leaves: `trimmed2` of the loop. -/
def round (ws : List String) (trimmed : Text) : Text :=
  let t := stripAll ws trimmed
  let (trimmed1, t1) := match stripSep t with
    | some s => (s, s)
    | none => (trimmed, t)
  match stripWord modifiers t1 with
    | some m => (match stripSep m with
      | some s => s
      | none => trimmed1)
    | none => trimmed1

theorem trimLoop_eq (ws : List String) (t : Text) : trimLoop ws t =
    if (stripWord ws t).isSome then (if (round ws t).length < t.length then trimLoop ws (round ws t) else t) else t := by
  rw [trimLoop]; rfl

theorem trimLoop_step {ws : List String} {t b : Text} (h1 : (stripWord ws t).isSome = true) (h2 : round ws t = b) (h3 : b.length < t.length) :
    trimLoop ws t = trimLoop ws b := by
  rw [trimLoop_eq, if_pos h1, h2, if_pos h3]

theorem round_plain {ws : List String} {t b : Text} {c : Char} (hc : c ∈ separators) (h : stripAll ws t = b ++ [c])
    (hb : ∀ a c m, c ∈ separators → m ∈ modifiers → b ≠ a ++ c :: m.toList) : round ws t = b := by
  unfold round
  simp only [h, (stripSep_iff (b ++ [c]) b).mpr ⟨c, hc, rfl⟩]
  split
  · rename_i m hm
    obtain ⟨w, hw, e⟩ := stripWord_some hm
    split
    · rename_i s hs
      obtain ⟨d, hd, e'⟩ := (stripSep_iff _ _).mp hs
      exact absurd (by rw [e, e']; simp) (hb s d w hd hw)
    · rfl
  · rfl

theorem round_modified {ws : List String} {t b : Text} {c d : Char} {m : String} (hc : c ∈ separators) (hd : d ∈ separators)
    (hm : m ∈ modifiers) (h : stripAll ws t = b ++ c :: m.toList ++ [d]) : round ws t = b := by
  unfold round
  simp only [h, (stripSep_iff (b ++ c :: m.toList ++ [d]) (b ++ c :: m.toList)).mpr ⟨d, hd, rfl⟩, stripMod hc hm,
    (stripSep_iff (b ++ [c]) b).mpr ⟨c, hc, rfl⟩]

theorem stripSep_mod {b : Text} {c : Char} {m : String} (hm : m ∈ modifiers) : stripSep (b ++ c :: m.toList) = none := by
  cases h : stripSep (b ++ c :: m.toList) with
  | none => rfl
  | some s =>
    obtain ⟨d, hd, e⟩ := (stripSep_iff _ _).mp h
    have hne : m.toList ≠ [] := by
      have : ∀ m ∈ modifiers, m.toList ≠ [] := by decide +kernel
      exact this m hm
    have hl : (b ++ c :: m.toList).getLast? = (s ++ [d]).getLast? := by rw [e]
    rw [List.getLast?_append, List.getLast?_append] at hl
    cases hg : m.toList.getLast? with
    | none => exact absurd (List.getLast?_eq_none_iff.mp hg) hne
    | some x =>
      obtain ⟨y, r, hyr⟩ := List.exists_cons_of_ne_nil hne
      rw [hyr] at hl hg
      rw [List.getLast?_cons_cons, hg] at hl
      simp at hl
      exact absurd hd (hl ▸ mods_nosep m hm x (by rw [hyr]; exact List.mem_of_getLast? hg))

theorem round_joined {ws : List String} {t b : Text} {c : Char} {m : String} (hc : c ∈ separators)
    (hm : m ∈ modifiers) (h : stripAll ws t = b ++ c :: m.toList) : round ws t = b := by
  unfold round
  simp only [h, stripSep_mod hm, stripMod hc hm, (stripSep_iff (b ++ [c]) b).mpr ⟨c, hc, rfl⟩]

theorem trimLoop_length (ws : List String) (t : Text) : (trimLoop ws t).length ≤ t.length := by
  induction h : t.length using Nat.strongRecOn generalizing t with
  | ind n ih =>
    rw [trimLoop_eq]
    split
    · split
      · rename_i hlt
        have := ih _ (by omega) (round ws t) rfl
        omega
      · omega
    · omega

/-! ## Texts in texts -/

theorem has_iff : ∀ (s w : Text), has s w = true ↔ ∃ a b, s = a ++ w ++ b
  | [], w => by
    rw [has, List.isEmpty_iff]
    constructor
    · rintro rfl; exact ⟨[], [], rfl⟩
    · rintro ⟨a, b, h⟩
      have := List.append_eq_nil_iff.mp h.symm
      exact (List.append_eq_nil_iff.mp this.1).2
  | c :: s, w => by
    rw [has, Bool.or_eq_true, List.isPrefixOf_iff_prefix, has_iff s w]
    constructor
    · rintro (⟨b, h⟩ | ⟨a, b, h⟩)
      · exact ⟨[], b, by simpa using h.symm⟩
      · exact ⟨c :: a, b, by rw [h]; simp⟩
    · rintro ⟨a, b, h⟩
      cases a with
      | nil => exact .inl ⟨b, by simpa using h.symm⟩
      | cons x a =>
        simp at h
        exact .inr ⟨a, b, by rw [h.2]; simp⟩

theorem has_says (s : Text) (w : String) : has s w.toList = true ↔ Says s w := has_iff s w.toList

theorem Says.sub {s : Text} {w v : String} (h : Says s w) (hv : has w.toList v.toList = true) : Says s v := by
  obtain ⟨a, b, rfl⟩ := h
  obtain ⟨x, y, e⟩ := (has_iff _ _).mp hv
  exact ⟨a ++ x, y ++ b, by rw [e]; simp⟩

end Tinymist.WebFonts
