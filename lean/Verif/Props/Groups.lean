import Verif.Spec.Groups

/-!
# What kinds of things are offered at a place (C180)
-/

namespace Tinymist.Groups

open Mode (Kind trivia)
open Pointer
open Context (Surrounding)

variable {idStart idContinue : Char → Bool} {text : Text} {p : Place} {cursor : Nat} {explicit punc : Bool}

/-! ## Helpers -/

theorem rawAt_up : ∀ (up : List Frame) (t : Tree), t.kind ≠ .raw → ∀ {inner f outer}, up = inner ++ f :: outer → (∀ g ∈ inner, g.kind ≠ .raw) →
    f.kind = .raw → rawAt t up = some (offset outer)
  | [], _, _, inner, f, outer, h, _, _ => by
    have := congrArg List.length h
    simp at this
  | g :: up, t, ht, inner, f, outer, h, hi, hf => by
    rw [rawAt, if_neg ht]
    cases inner with
    | nil =>
      cases h
      cases up with
      | nil => rw [rawAt, if_pos (by exact hf)]; rfl
      | cons a b => rw [rawAt, if_pos (by exact hf)]
    | cons i inner =>
      cases h
      exact rawAt_up _ (.inner g.kind _) (hi g (List.mem_cons_self ..)) rfl (fun x hx => hi x (List.mem_cons_of_mem _ hx)) hf

theorem rawAt_in {off : Nat} (h : InRaw p off) : rawAt p.tree p.up = some off := by
  rcases h with ⟨h1, h2⟩ | ⟨h1, inner, f, outer, h2, h3, h4, h5⟩
  · obtain ⟨t, up⟩ := p
    simp only at h1
    cases up with
    | nil => rw [rawAt, if_pos h1, ← h2]; rfl
    | cons f up => rw [rawAt, if_pos h1, ← h2]; rfl
  · rw [h5]
    exact rawAt_up p.up p.tree h1 h2 h3 h4

theorem rawAt_none : ∀ (up : List Frame) (t : Tree), t.kind ≠ .raw → (∀ f ∈ up, f.kind ≠ .raw) → rawAt t up = none
  | [], t, ht, _ => by rw [rawAt, if_neg ht]
  | f :: up, t, ht, hu => by
    rw [rawAt, if_neg ht]
    exact rawAt_none up _ (hu f (List.mem_cons_self ..)) fun x hx => hu x (List.mem_cons_of_mem _ hx)

theorem takeWhile_append_stop {P : Char → Bool} {l r : Text} (hl : ∀ c ∈ l, P c = true) (hr : ∀ c s, r = c :: s → P c = false) :
    (l ++ r).takeWhile P = l := by
  induction l with
  | nil =>
    cases r with
    | nil => rfl
    | cons c s => rw [List.nil_append, List.takeWhile_cons, hr c s rfl]; rfl
  | cons c l ih =>
    rw [List.cons_append, List.takeWhile_cons, hl c (List.mem_cons_self ..)]
    simp only [if_true]
    rw [ih fun x hx => hl x (List.mem_cons_of_mem _ hx)]

theorem language_fenced {off start stop : Nat} (h : Fenced idStart idContinue text off start stop) :
    language idStart idContinue text off = some (start, stop) := by
  obtain ⟨a, ticks, lang, rest, rfl, rfl, h3, h4, h5, h6, h7, h8, rfl, rfl⟩ := h.split
  obtain ⟨x, y, z, more, rfl⟩ : ∃ x y z more, ticks = x :: y :: z :: more := by
    match ticks, h3 with
    | x :: y :: z :: more, _ => exact ⟨x, y, z, more, rfl⟩
  have hx : x = '`' := h4 x (by simp)
  have hy : y = '`' := h4 y (by simp)
  have hz : z = '`' := h4 z (by simp)
  subst hx hy hz
  have hm : ∀ c ∈ more, (c == '`') = true := fun c hc => by simpa using h4 c (by simp [hc])
  have e1 : (a ++ ('`' :: '`' :: '`' :: more) ++ lang ++ rest).drop a.length = '`' :: '`' :: '`' :: (more ++ (lang ++ rest)) := by simp
  have e2 : (a ++ ('`' :: '`' :: '`' :: more) ++ lang ++ rest).drop (a.length + 3) = more ++ (lang ++ rest) := by
    rw [← List.drop_drop, e1]
    rfl
  have e3 : (more ++ (lang ++ rest)).takeWhile (· == '`') = more :=
    takeWhile_append_stop hm fun c s hs => by simpa using h6 c s hs
  have e4 : (a ++ ('`' :: '`' :: '`' :: more) ++ lang ++ rest).drop (a.length + 3 + more.length) = lang ++ rest := by
    rw [← List.drop_drop, e2]
    simp
  unfold language
  rw [e1, if_pos (by rfl)]
  simp only [e2, e3, e4]
  have e5 : a.length + 3 + more.length = (a ++ ('`' :: '`' :: '`' :: more)).length := by simp; omega
  rw [← e5]
  rcases h5 with rfl | ⟨c, cs, rfl, hc, hcs⟩
  · cases rest with
    | nil => simp; omega
    | cons c r =>
      simp only [List.nil_append, List.append_nil]
      rw [h7 rfl c r rfl]
      simp; omega
  · simp only [List.cons_append]
    rw [hc, if_pos rfl, takeWhile_append_stop hcs (h8 (by simp))]
    simp; omega

theorem language_none {off : Nat} (h : ¬ ∃ r, text.drop off = '`' :: '`' :: '`' :: r) : language idStart idContinue text off = none := by
  unfold language
  rw [if_neg]
  intro hp
  obtain ⟨r, hr⟩ := List.isPrefixOf_iff_prefix.mp hp
  exact h ⟨r, by rw [← hr]; rfl⟩

theorem prev_of {k : Kind} (h : Before p k) : (p.prevLeaf.map fun l => l.tree.kind) = some k := by
  obtain ⟨l, h1, h2⟩ := h
  rw [h1, Option.map_some, h2]

theorem of_prev {k : Kind} (h : (p.prevLeaf.map fun l => l.tree.kind) = some k) : Before p k := by
  obtain ⟨l, h1, h2⟩ := Option.map_eq_some_iff.mp h
  exact ⟨l, h1, h2⟩

theorem binding_iff : behindBinding p = true ↔ BehindBinding p := by
  unfold behindBinding BehindBinding parentKind
  cases hl : p.prevLeaf with
  | none => simp
  | some l =>
    cases hp : l.parent with
    | none => simp [hp]
    | some q => simp [hp]

theorem not_comment (h : p.tree.kind ≠ .lineComment ∧ p.tree.kind ≠ .blockComment) : ¬ (p.tree.kind = .lineComment ∨ p.tree.kind = .blockComment) := by
  rintro (e | e)
  · exact h.1 e
  · exact h.2 e

/-! ## What fits -/

theorem code_offers {o : Offer} (h : o ∈ (completeCode p cursor).offers) : Fits .code o := by
  have hc : ∀ b, o ∈ codeOffers b → Fits .code o := by
    intro b hb
    unfold codeOffers at hb
    cases b <;> simp at hb <;> simp only [Fits]
    · rcases hb with h | h | h <;> simp [h]
    · rcases hb with h | h <;> simp [h]
  simp only [completeCode] at h
  repeat' split at h
  all_goals first | exact hc _ h | cases h

theorem math_offers {o : Offer} (h : o ∈ (completeMath p cursor explicit punc).offers) : Fits .math o := by
  simp only [completeMath] at h
  repeat' split at h
  · simpa [Fits] using h
  · simpa [Fits] using h
  · cases h

theorem markup_offers {o : Offer} (h : o ∈ (completeMarkup idStart idContinue text p cursor explicit punc).offers) :
    o = .markup ∨ o = .languages ∨ ((BehindBinding p ∨ Before p .contextKw) ∧ Fits .code o) := by
  have hc : ∀ b, o ∈ codeOffers b → Fits .code o := by
    intro b hb
    unfold codeOffers at hb
    cases b <;> simp at hb <;> simp only [Fits]
    · rcases hb with h | h | h <;> simp [h]
    · rcases hb with h | h <;> simp [h]
  unfold completeMarkup at h
  split at h
  · rename_i hb
    exact .inr (.inr ⟨.inl (binding_iff.mp hb), hc _ h⟩)
  · split at h
    · rename_i hb
      exact .inr (.inr ⟨.inr (of_prev hb), hc _ h⟩)
    · split at h
      · split at h
        · exact .inr (.inl (by simpa using h))
        · cases h
      · split at h
        · exact .inl (by simpa using h)
        · cases h

/-- **C180.** In code and equations only what fits is offered, and in strings and comments nothing; but for what belongs to the rule around. -/
theorem fits {o : Offer} (h : o ∈ (groups idStart idContinue text p cursor explicit punc).offers)
    (hm : modeAt p.tree p.up ≠ .raw ∧ modeAt p.tree p.up ≠ .markup) :
    Fits (modeAt p.tree p.up) o ∨ (o = .selectors ∧ Context.surrounding p = .selector) ∨ (o = .transforms ∧ Context.surrounding p = .showTransform) := by
  unfold groups at h
  split at h
  · cases h
  · simp only at h
    split at h
    · cases h
    · rcases List.mem_append.mp h with h | h
      · left
        unfold byMode at h
        cases hk : modeAt p.tree p.up with
        | raw => exact absurd hk hm.1
        | markup => exact absurd hk hm.2
        | code => rw [hk] at h; exact code_offers h
        | math => rw [hk] at h; exact math_offers h
        | comment => rw [hk] at h; cases h
        | string => rw [hk] at h; cases h
      · right
        unfold bySurrounding at h
        cases hs : Context.surrounding p <;> rw [hs] at h <;> simp at h <;> simp [h]

/-- **C180.** In markup, names and code are only offered behind the sign of a binding, behind `context`, and in a rule; equations never. -/
theorem markup_fits {o : Offer} (h : o ∈ (groups idStart idContinue text p cursor explicit punc).offers) (hm : modeAt p.tree p.up = .markup)
    (hr : p.tree.kind ≠ .raw ∧ ∀ f ∈ p.up, f.kind ≠ .raw) :
    o = .markup ∨ (Fits .code o ∧ (BehindBinding p ∨ Before p .contextKw ∨ Context.surrounding p ∈ [Surrounding.selector, .showTransform, .setRule])) ∨
      (o = .selectors ∧ Context.surrounding p = .selector) ∨ (o = .transforms ∧ Context.surrounding p = .showTransform) := by
  unfold groups at h
  split at h
  · cases h
  · simp only at h
    split at h
    · cases h
    · rename_i hsur
      rcases List.mem_append.mp h with h | h
      · unfold byMode at h
        rw [hm] at h
        cases hs : Context.surrounding p with
        | regular =>
          rw [hs] at h
          have hno : o ≠ .languages := by
            rintro rfl
            have hc : ∀ b, Offer.languages ∉ codeOffers b := by
              intro b
              cases b <;> decide
            simp only [completeMarkup, rawAt_none p.up p.tree hr.1 hr.2, Option.bind_none] at h
            repeat' split at h
            · exact hc _ h
            · exact hc _ h
            · simp at h
            · cases h
          rcases markup_offers h with h | h | ⟨h1, h2⟩
          · exact .inl h
          · exact absurd h hno
          · exact .inr (.inl ⟨h2, h1.elim .inl fun x => .inr (.inl x)⟩)
        | selector => rw [hs] at h; exact .inr (.inl ⟨code_offers h, .inr (.inr (by simp))⟩)
        | showTransform => rw [hs] at h; exact .inr (.inl ⟨code_offers h, .inr (.inr (by simp))⟩)
        | setRule => rw [hs] at h; exact .inr (.inl ⟨code_offers h, .inr (.inr (by simp))⟩)
        | stringContent => rw [hs] at h; cases h
        | importList => exact absurd (.inl hs) hsur
        | paramList => exact absurd (.inr hs) hsur
      · right; right
        unfold bySurrounding at h
        cases hs : Context.surrounding p <;> rw [hs] at h <;> simp at h <;> simp [h]

/-- **C180.** In comments, and in lists of imports and parameters, nothing of this is offered. -/
theorem nowhere (h : p.tree.kind = .lineComment ∨ p.tree.kind = .blockComment ∨ Context.surrounding p = .importList ∨
    Context.surrounding p = .paramList) : (groups idStart idContinue text p cursor explicit punc).offers = [] := by
  unfold groups
  split
  · rfl
  · rename_i hn
    simp only
    rw [if_pos]
    rcases h with h | h | h | h
    · exact absurd (.inl h) hn
    · exact absurd (.inr h) hn
    · exact .inl h
    · exact .inr h

/-! ## Code -/

theorem groups_code (hm : modeAt p.tree p.up = .code) (hs : Context.surrounding p = .regular)
    (hk : p.tree.kind ≠ .lineComment ∧ p.tree.kind ≠ .blockComment) :
    groups idStart idContinue text p cursor explicit punc = completeCode p cursor := by
  unfold groups
  rw [if_neg (not_comment hk)]
  simp only [hs, byMode, hm, bySurrounding, List.append_nil]
  rw [if_neg (by simp)]

/-- **C180.** Behind a hash, names and code are offered, to be put at the cursor. -/
theorem code_hash (hm : modeAt p.tree p.up = .code) (hs : Context.surrounding p = .regular) (hk : p.tree.kind = .hash) :
    groups idStart idContinue text p cursor explicit punc = ⟨some cursor, [.names, .code]⟩ := by
  rw [groups_code hm hs (by rw [hk]; decide)]
  unfold completeCode
  simp only
  rw [if_pos hk]
  rfl

/-- **C180.** On a name, names and code are offered in its place, and an unnamed function too unless the name is behind a hash. -/
theorem code_name (hm : modeAt p.tree p.up = .code) (hs : Context.surrounding p = .regular) (hk : p.tree.kind = .ident) :
    ∃ l, groups idStart idContinue text p cursor explicit punc = ⟨some p.offset, [.names, .code] ++ l⟩ ∧
      (Before p .hash → l = []) ∧ (¬ Before p .hash → l = [.function]) := by
  rw [groups_code hm hs (by rw [hk]; decide)]
  unfold completeCode
  simp only
  rw [if_neg (by rw [hk]; decide), if_pos hk]
  unfold codeOffers isHashExpr
  rw [hk]
  simp only
  refine ⟨_, rfl, fun h => ?_, fun h => ?_⟩
  · rw [prev_of h]
    rfl
  · rw [if_neg]
    intro hc
    exact h (of_prev (by simpa using hc))

/-- **C180.** On blanks in code, at an opening brace and behind `context`, names, code and an unnamed function are offered, to be put at the cursor. -/
theorem code_blank (hm : modeAt p.tree p.up = .code) (hs : Context.surrounding p = .regular)
    (hc : p.tree.kind ≠ .lineComment ∧ p.tree.kind ≠ .blockComment)
    (hk : trivia p.tree.kind = true ∨ p.tree.kind = .leftParen ∨ p.tree.kind = .leftBrace ∨ (Before p .contextKw ∧ p.tree.kind ≠ .hash ∧ p.tree.kind ≠ .ident)) :
    groups idStart idContinue text p cursor explicit punc = ⟨some cursor, [.names, .code, .function]⟩ := by
  rw [groups_code hm hs hc]
  have h1 : p.tree.kind ≠ .hash ∧ p.tree.kind ≠ .ident := by
    rcases hk with h | h | h | ⟨-, h⟩
    · constructor <;> intro e <;> rw [e] at h <;> cases h
    · rw [h]; decide
    · rw [h]; decide
    · exact h
  unfold completeCode
  simp only
  rw [if_neg h1.1, if_neg h1.2]
  split
  · rfl
  · rename_i hn
    rw [if_neg (fun h => h1.2 h.1), if_pos]
    · rfl
    · rcases hk with h | h | h | ⟨h, -⟩
      · exact .inl h
      · exact .inr (.inl h)
      · exact .inr (.inr (.inl h))
      · exact absurd (prev_of h) hn

/-- **C180.** Within and behind other expressions nothing is offered. -/
theorem code_else (hm : modeAt p.tree p.up = .code) (hs : Context.surrounding p = .regular)
    (hk : trivia p.tree.kind = false ∧ p.tree.kind ∉ [Kind.hash, .ident, .leftParen, .leftBrace, .colon]) (hc : ¬ Before p .contextKw) :
    groups idStart idContinue text p cursor explicit punc = ⟨none, []⟩ := by
  obtain ⟨h1, h2⟩ := hk
  simp only [List.mem_cons, List.not_mem_nil, or_false, not_or] at h2
  obtain ⟨a, b, c, d, e⟩ := h2
  rw [groups_code hm hs (by constructor <;> intro e <;> rw [e] at h1 <;> cases h1)]
  unfold completeCode
  simp only
  rw [if_neg a, if_neg b, if_neg (fun h => hc (of_prev h)), if_neg (fun h => b h.1), if_neg]
  rintro (h | h | h | h)
  · rw [h1] at h; cases h
  · exact c h
  · exact d h
  · exact e h.1

/-- **C180.** In a rule, also where it is in markup, code is offered on blanks and at its colon, and behind it what is only for the place of the
selector, or of what takes its place. -/
theorem rule (hm : modeAt p.tree p.up = .code ∨ modeAt p.tree p.up = .markup)
    (hs : Context.surrounding p ∈ [Surrounding.selector, .showTransform, .setRule]) (hc : p.tree.kind ≠ .lineComment ∧ p.tree.kind ≠ .blockComment)
    (hk : trivia p.tree.kind = true ∨ (p.tree.kind = .colon ∧ ∃ q, p.parent = some q ∧ q.tree.kind = .showRule)) :
    ∃ l, groups idStart idContinue text p cursor explicit punc = ⟨some cursor, [.names, .code, .function] ++ l⟩ ∧
      (Context.surrounding p = .selector → l = [.selectors]) ∧ (Context.surrounding p = .showTransform → l = [.transforms]) ∧
      (Context.surrounding p = .setRule → l = []) := by
  have hcode : completeCode p cursor = ⟨some cursor, [.names, .code, .function]⟩ := by
    have h1 : p.tree.kind ≠ .hash ∧ p.tree.kind ≠ .ident := by
      rcases hk with h | ⟨h, -⟩
      · constructor <;> intro e <;> rw [e] at h <;> cases h
      · rw [h]; decide
    unfold completeCode
    simp only
    rw [if_neg h1.1, if_neg h1.2]
    split
    · rfl
    rw [if_neg (fun h => h1.2 h.1), if_pos]
    · rfl
    · rcases hk with h | ⟨h, q, h2, h3⟩
      · exact .inl h
      · exact .inr (.inr (.inr ⟨h, by unfold parentKind; rw [h2, Option.map_some, h3]⟩))
  have hmode : byMode idStart idContinue text (modeAt p.tree p.up) (Context.surrounding p) p cursor explicit punc = completeCode p cursor := by
    unfold byMode
    rcases hm with hm | hm
    · rw [hm]
    · rw [hm]
      simp only [List.mem_cons, List.not_mem_nil, or_false] at hs
      rcases hs with h | h | h <;> rw [h]
  unfold groups
  rw [if_neg (not_comment hc)]
  simp only
  rw [hmode, hcode]
  simp only [List.mem_cons, List.not_mem_nil, or_false] at hs
  rw [if_neg (by rcases hs with h | h | h <;> rw [h] <;> simp)]
  refine ⟨_, rfl, ?_, ?_, ?_⟩ <;> intro h <;> rw [h] <;> rfl

/-! ## Equations -/

/-- **C180.** In equations, names and symbols are offered in the place of a word; elsewhere if asked for; but never behind punctuation. -/
theorem math (hm : modeAt p.tree p.up = .math) (hs : Context.surrounding p = .regular) (hc : p.tree.kind ≠ .lineComment ∧ p.tree.kind ≠ .blockComment) :
    (punc = true → groups idStart idContinue text p cursor explicit punc = ⟨none, []⟩) ∧
      (punc = false → p.tree.kind ∈ [Kind.text, .mathIdent, .mathText] →
        groups idStart idContinue text p cursor explicit punc = ⟨some p.offset, [.names, .math]⟩) ∧
      (punc = false → p.tree.kind ∉ [Kind.text, .mathIdent, .mathText] → explicit = true →
        groups idStart idContinue text p cursor explicit punc = ⟨some cursor, [.names, .math]⟩) ∧
      (p.tree.kind ∉ [Kind.text, .mathIdent, .mathText] → explicit = false →
        groups idStart idContinue text p cursor explicit punc = ⟨none, []⟩) := by
  have e : groups idStart idContinue text p cursor explicit punc = completeMath p cursor explicit punc := by
    unfold groups
    rw [if_neg (not_comment hc)]
    simp only [hs, byMode, hm, bySurrounding, List.append_nil]
    rw [if_neg (by simp)]
  rw [e]
  simp only [List.mem_cons, List.not_mem_nil, or_false]
  refine ⟨?_, ?_, ?_, ?_⟩
  · rintro rfl
    simp [completeMath]
  · rintro rfl hk
    simp [completeMath, hk]
  · rintro rfl hk rfl
    simp [completeMath, hk]
  · rintro hk rfl
    simp [completeMath, hk]

/-! ## Raw text and markup -/

theorem groups_markup (hm : modeAt p.tree p.up = .raw ∨ modeAt p.tree p.up = .markup) (hs : Context.surrounding p = .regular)
    (hc : p.tree.kind ≠ .lineComment ∧ p.tree.kind ≠ .blockComment) :
    groups idStart idContinue text p cursor explicit punc = completeMarkup idStart idContinue text p cursor explicit punc := by
  unfold groups
  rw [if_neg (not_comment hc)]
  simp only [hs]
  rw [if_neg (by simp)]
  rcases hm with hm | hm <;> simp only [byMode, hm, bySurrounding, List.append_nil]

/-- **C180.** Right behind the language of a raw text, also where it is still empty, languages are offered in its place; elsewhere in the raw text
nothing.
Missing: raw texts behind the sign of a binding, `context` or a hash. -/
theorem raw_language_partial {off start stop : Nat} (hm : modeAt p.tree p.up = .raw) (hs : Context.surrounding p = .regular)
    (hc : p.tree.kind ≠ .lineComment ∧ p.tree.kind ≠ .blockComment) (hb : ¬ BehindBinding p) (hx : ¬ Before p .contextKw) (hr : InRaw p off)
    (hf : Fenced idStart idContinue text off start stop) :
    (cursor = stop → groups idStart idContinue text p cursor explicit punc = ⟨some start, [.languages]⟩) ∧
      (cursor ≠ stop → groups idStart idContinue text p cursor explicit punc = ⟨none, []⟩) := by
  rw [groups_markup (.inl hm) hs hc]
  unfold completeMarkup
  rw [if_neg (fun h => hb (binding_iff.mp h)), if_neg (fun h => hx (of_prev h)), rawAt_in hr, Option.bind_some, language_fenced hf]
  simp only
  exact ⟨fun h => if_pos h.symm, fun h => if_neg fun e => h e.symm⟩

/-- **C180.** Inside of raw text in a line nothing is offered if it is not asked for explicitly, which the server takes no request to do
(tinymist-query/src/completion.rs 78); if it were, snippets of markup would be. -/
theorem raw_in_line {off : Nat} (hm : modeAt p.tree p.up = .raw) (hs : Context.surrounding p = .regular)
    (hc : p.tree.kind ≠ .lineComment ∧ p.tree.kind ≠ .blockComment) (hb : ¬ BehindBinding p) (hx : ¬ Before p .contextKw) (hr : InRaw p off)
    (ht : ¬ ∃ r, text.drop off = '`' :: '`' :: '`' :: r) :
    groups idStart idContinue text p cursor false punc = ⟨none, []⟩ ∧
      groups idStart idContinue text p cursor true false = ⟨some cursor, [.markup]⟩ := by
  rw [groups_markup (.inl hm) hs hc, groups_markup (.inl hm) hs hc]
  unfold completeMarkup
  rw [if_neg (fun h => hb (binding_iff.mp h)), if_neg (fun h => hx (of_prev h)), rawAt_in hr, Option.bind_some, language_none ht]
  simp only [if_neg (fun h => hb (binding_iff.mp h)), if_neg (fun h => hx (of_prev h))]
  cases punc <;> exact ⟨rfl, rfl⟩

/-- **C180, violated.** Where the raw text is the value of a binding, code is offered behind its backticks, and no languages. -/
theorem raw_of_binding (hm : modeAt p.tree p.up = .raw) (hs : Context.surrounding p = .regular)
    (hc : p.tree.kind ≠ .lineComment ∧ p.tree.kind ≠ .blockComment) (hb : BehindBinding p) :
    groups idStart idContinue text p cursor explicit punc = ⟨some cursor, [.names, .code, .function]⟩ := by
  rw [groups_markup (.inl hm) hs hc]
  unfold completeMarkup
  rw [if_pos (binding_iff.mpr hb)]
  rfl

/-- **C180, violated.** Behind the backticks of a raw text behind a hash nothing is offered, no languages either. -/
theorem raw_behind_hash {f : Frame} {up : List Frame} (hk : p.tree.kind = .rawDelim) (hu : p.up = f :: up) (hh : Before p .hash)
    (hs : Context.surrounding p = .regular) :
    groups idStart idContinue text p cursor explicit punc = ⟨none, []⟩ := by
  have hp : prevLeafFrom p.tree (f :: up) = p.prevLeaf := by
    unfold Place.prevLeaf
    rw [hu]
  have hm : modeAt p.tree p.up = .code := by
    rw [hu, modeAt, hp, prev_of hh, hk]
    rfl
  refine code_else hm hs (by rw [hk]; decide) ?_
  rintro ⟨l, h1, h2⟩
  obtain ⟨l', h3, h4⟩ := hh
  rw [h1] at h3
  cases h3
  rw [h2] at h4
  cases h4

/-- **C180.** In markup outside of rules, behind a binding's sign or `context` code is offered; else snippets of markup, if they are asked for and not by
punctuation. -/
theorem markup (hm : modeAt p.tree p.up = .markup) (hs : Context.surrounding p = .regular)
    (hc : p.tree.kind ≠ .lineComment ∧ p.tree.kind ≠ .blockComment) (hr : p.tree.kind ≠ .raw ∧ ∀ f ∈ p.up, f.kind ≠ .raw) :
    (BehindBinding p ∨ Before p .contextKw → groups idStart idContinue text p cursor explicit punc = ⟨some cursor, [.names, .code, .function]⟩) ∧
      (¬ (BehindBinding p ∨ Before p .contextKw) → explicit = true ∧ punc = false →
        groups idStart idContinue text p cursor explicit punc = ⟨some cursor, [.markup]⟩) ∧
      (¬ (BehindBinding p ∨ Before p .contextKw) → ¬ (explicit = true ∧ punc = false) →
        groups idStart idContinue text p cursor explicit punc = ⟨none, []⟩) := by
  rw [groups_markup (.inr hm) hs hc]
  unfold completeMarkup
  rw [rawAt_none p.up p.tree hr.1 hr.2, Option.bind_none]
  refine ⟨?_, ?_, ?_⟩
  · intro h
    split
    · rfl
    · rename_i hn
      rw [if_pos]
      · rfl
      · rcases h with h | h
        · exact absurd (binding_iff.mpr h) hn
        · exact prev_of h
  · rintro h ⟨rfl, rfl⟩
    rw [if_neg (fun x => h (.inl (binding_iff.mp x))), if_neg (fun x => h (.inr (of_prev x)))]
    rfl
  · intro h h2
    rw [if_neg (fun x => h (.inl (binding_iff.mp x))), if_neg (fun x => h (.inr (of_prev x)))]
    simp only
    rw [if_neg]
    intro hx
    exact h2 (by simpa [and_comm] using hx)

/-! ## The hypotheses are met -/

/-- `#show : ` with the cursor behind the blank. -/
def exShow : Place := ⟨.leaf .space [' '], [⟨.showRule, [.leaf .showKw ['s', 'h', 'o', 'w'], .leaf .space [' '], .leaf .colon [':']], []⟩,
  ⟨.markup, [.leaf .hash ['#']], []⟩]⟩

example : groups Char.isAlpha Char.isAlphanum "#show : ".toList exShow 8 false false = ⟨some 8, [.names, .code, .function, .transforms]⟩ := by
  decide +kernel

/-- `` ```py`` at the end of a file, with the cursor behind the language. -/
def exRaw : Place := ⟨.leaf .rawLang ['p', 'y'], [⟨.raw, [.leaf .rawDelim ['`', '`', '`']], [.leaf .rawDelim ['`', '`', '`']]⟩, ⟨.markup, [], []⟩]⟩

example : modeAt exRaw.tree exRaw.up = .raw ∧ Context.surrounding exRaw = .regular := by decide +kernel

example : Fenced Char.isAlpha Char.isAlphanum ['`', '`', '`', 'p', 'y', '`', '`', '`'] 0 3 5 :=
  ⟨⟨[], ['`', '`', '`'], ['p', 'y'], ['`', '`', '`'], rfl, rfl, by decide, by decide,
    .inr ⟨'p', ['y'], rfl, by decide, by decide⟩, by intro c r h; cases h; decide, by simp, by intro _ c r h; cases h; decide, rfl, rfl⟩⟩

example : InRaw exRaw 0 := .inr ⟨by decide, [], _, _, rfl, by simp, rfl, rfl⟩

example : groups Char.isAlpha Char.isAlphanum ['`', '`', '`', 'p', 'y', '`', '`', '`'] exRaw 5 false false = ⟨some 3, [.languages]⟩ := by
  decide +kernel

/-- `#let x = ` and a raw text. -/
def exBinding : Place := ⟨.leaf .rawDelim ['`', '`', '`'], [⟨.raw, [], []⟩, ⟨.letBinding, [.leaf .letKw ['l', 'e', 't'], .leaf .ident ['x'], .leaf .eq ['=']], []⟩,
  ⟨.markup, [.leaf .hash ['#']], []⟩]⟩

example : groups Char.isAlpha Char.isAlphanum "#letx=```".toList exBinding 9 false false = ⟨some 9, [.names, .code, .function]⟩ := by
  decide +kernel

end Tinymist.Groups
