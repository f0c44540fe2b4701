import Verif.Lemmas.WebTokens
/-!
# C154: the semantic tokens of the compiler library
-/
namespace Tinymist.WebTokens
open Position Spec

theorem single_token (enc : Encoding) (doc : Text) (p : Place) (line char : Nat)
    (hpos : toLsp enc doc (len8 p.before) = some (line, char)) :
    (rawOf p = [] ∧ Untold p) ∨
    ∃ t, rawOf p = [t] ∧ t.offset = len8 p.before ∧
      IsToken enc doc p ⟨line, char, t.length, legend.1[t.type]?, namesOf t.mods legend.2⟩ := by
  have hno : typeOf p.node.info p.around.head? = none → ¬ ∃ name, HasName p.node.info p.around.head? name := by
    rintro h ⟨name, hn⟩
    obtain ⟨t, ht, -⟩ := (typeOf_iff _ _ _).mp hn
    rw [h] at ht; cases ht
  unfold rawOf single
  cases ht : typeOf p.node.info p.around.head? with
  | some t =>
    right
    rw [Option.some_or]
    refine ⟨⟨len8 p.before / 2 ^ 32, len8 p.before % 2 ^ 32, len16 p.node.text, t.code,
      bitsOf (p.node.info.kind :: p.around)⟩, rfl, by unfold Sem.offset; exact halves _, hpos, rfl, names_legend (p.node.info.kind :: p.around),
      t.name, legend_name t, .inl ?_⟩
    exact (typeOf_iff _ _ _).mpr ⟨t, ht, rfl⟩
  | none =>
    rw [Option.none_or]
    by_cases hl : isLeafB p.node = true
    · right
      rw [if_pos hl]
      exact ⟨⟨len8 p.before / 2 ^ 32, len8 p.before % 2 ^ 32, len16 p.node.text, Ty.text.code,
        bitsOf (p.node.info.kind :: p.around)⟩, rfl, by unfold Sem.offset; exact halves _, hpos, rfl, names_legend (p.node.info.kind :: p.around),
        "text", legend_name .text, .inr ⟨hno ht, (isLeafB_iff _).mp hl, rfl⟩⟩
    · left
      rw [if_neg hl]
      exact ⟨rfl, hno ht, fun h => hl ((isLeafB_iff _).mpr h)⟩

/-- The loop over the tokens of places in order. -/
theorem relative_tokens (enc : Encoding) (doc : Text) : ∀ (ps : List Place) (last : Text) (init : Nat × Nat),
    toLsp enc doc (len8 last) = some init → (∀ p ∈ ps, last <+: p.before) → (∀ p ∈ ps, p.before <+: doc) →
    (ps.Pairwise fun p q => p.before <+: q.before) →
    ∃ ts, loop (position enc doc) init (ps.flatMap rawOf) = some ts ∧ Tokens enc doc ps (decode legend.1 legend.2 init ts)
  | [], last, init, _, _, _, _ => ⟨[], rfl, .nil⟩
  | p :: ps, last, init, hinit, hlast, hdoc, hsort => by
    rw [List.pairwise_cons] at hsort
    obtain ⟨post, hpost⟩ := hdoc p (by simp)
    obtain ⟨line, char, hpos, -⟩ := position_round_trip enc doc p.before post hpost.symm
    rcases single_token enc doc p line char hpos with ⟨hr, hu⟩ | ⟨t, hr, hoff, htok⟩
    · obtain ⟨ts, h1, h2⟩ := relative_tokens enc doc ps last init hinit (fun q hq => hlast q (List.mem_cons_of_mem _ hq))
        (fun q hq => hdoc q (List.mem_cons_of_mem _ hq)) hsort.2
      refine ⟨ts, ?_, .skip hu h2⟩
      rw [List.flatMap_cons, hr, List.nil_append]
      exact h1
    · obtain ⟨ts, h1, h2⟩ := relative_tokens enc doc ps p.before (line, char) hpos hsort.1
        (fun q hq => hdoc q (List.mem_cons_of_mem _ hq)) hsort.2
      have hle : init.1 < line ∨ (init.1 = line ∧ init.2 ≤ char) := by
        obtain ⟨d, hd⟩ := hlast p (by simp)
        by_cases he : d = []
        · subst he
          rw [List.append_nil] at hd
          rw [← hd, hinit] at hpos
          cases hpos
          exact .inr ⟨rfl, Nat.le_refl _⟩
        · obtain ⟨x, y, hx, hy, hb⟩ := position_monotone enc doc last d post (by rw [hd, hpost]) he
          rw [hinit] at hx
          rw [hd, hpos] at hy
          cases hx; cases hy
          rcases hb with hb | ⟨hb, hc⟩
          · exact .inl hb
          · exact .inr ⟨hb, Nat.le_of_lt hc⟩
      have hp : position enc doc t.offset = some (line, char) := by
        rw [hoff, position_at enc doc p.before post hpost.symm, hpos]
      rw [List.flatMap_cons, hr, List.cons_append, List.nil_append]
      rcases hle with hlt | ⟨heq, hle⟩
      · have ht : turn (some (line, char)) init t = some ((line, char), { t with deltaLine := line - init.1, deltaStart := char }) := by
          unfold turn
          simp only []
          rw [if_neg (by omega), if_neg (by omega)]
        refine ⟨{ t with deltaLine := line - init.1, deltaStart := char } :: ts, by rw [loop, hp, ht]; simp only [h1, Option.map_some], ?_⟩
        rw [decode]
        simp only []
        rw [if_neg (by omega)]
        have e : init.1 + (line - init.1) = line := by omega
        simp only [e]
        exact .token htok h2
      · have ht : turn (some (line, char)) init t = some ((line, char), { t with deltaLine := 0, deltaStart := char - init.2 }) := by
          unfold turn
          simp only []
          rw [if_neg (by omega), if_pos heq.symm, if_neg (by omega)]
        refine ⟨{ t with deltaLine := 0, deltaStart := char - init.2 } :: ts, by rw [loop, hp, ht]; simp only [h1, Option.map_some], ?_⟩
        rw [decode]
        simp only [if_true]
        have e : init.2 + (char - init.2) = char := by omega
        simp only [e, heq]
        exact .token htok h2

/-- **C154.** For every document and either encoding, tokens are given, without a panic; read with the names of
the legend, they are those of the nodes of the document, in order: each at the position where its node begins, with
the name for its kind and the styles of all that is around it.
Missing: that tokens never overlap. -/
theorem tokens_of_document_partial (enc : Encoding) (root : Node) :
    ∃ ts, full enc root = some ts ∧ Tokens enc root.text (places [] [] root) (decode legend.1 legend.2 (0, 0) ts) := by
  have h := tree_raw root [] []
  simp only [List.head?_nil, bitsOf] at h
  unfold full
  have h0 : (len8 ([] : Text)) = 0 := rfl
  rw [h0] at h
  rw [h]
  refine relative_tokens enc root.text _ [] (0, 0) (toLsp_zero enc _) (fun _ _ => List.nil_prefix) ?_ (places_sorted root [] [])
  intro p hp
  have := (place_in root [] [] p hp).2
  exact (List.prefix_append _ _).trans (by simpa using this)

/-- **C154.** The names of types in the legend are all different, and so are those of modifiers. -/
theorem legend_distinct : legend.1.Nodup ∧ legend.2.Nodup := by decide

mutual
theorem leaf_here : ∀ (n : Node) (before : Text) (around : List Kind) (pre post : Text), n.text = pre ++ post → post ≠ [] →
    ∃ q ∈ places before around n, IsLeaf q.node ∧ ∃ a b, q.node.text = a ++ b ∧ b ≠ [] ∧ before ++ pre = q.before ++ a
  | .leaf i t, before, around, pre, post, h, hne =>
    ⟨⟨before, around, .leaf i t⟩, by simp [places], trivial, pre, post, h, hne, rfl⟩
  | .inner i cs, before, around, pre, post, h, hne => by
    obtain ⟨q, hq, hr⟩ := leaf_hereIn cs before (i.kind :: around) pre post h hne
    exact ⟨q, by rw [places]; exact List.mem_cons_of_mem _ hq, hr⟩
theorem leaf_hereIn : ∀ (ns : List Node) (before : Text) (around : List Kind) (pre post : Text), forestText ns = pre ++ post → post ≠ [] →
    ∃ q ∈ placesIn before around ns, IsLeaf q.node ∧ ∃ a b, q.node.text = a ++ b ∧ b ≠ [] ∧ before ++ pre = q.before ++ a
  | [], _, _, pre, post, h, hne => by
    rw [forestText] at h
    exact absurd (List.append_eq_nil_iff.mp h.symm).2 hne
  | n :: ns, before, around, pre, post, h, hne => by
    rw [forestText] at h
    rcases List.append_eq_append_iff.mp h with ⟨p', hp, hl⟩ | ⟨t, hl, hp⟩
    · obtain ⟨q, hq, hr1, a, b, h1, h2, h3⟩ := leaf_hereIn ns (before ++ n.text) around p' post hl hne
      refine ⟨q, by rw [placesIn]; exact List.mem_append_right _ hq, hr1, a, b, h1, h2, ?_⟩
      rw [hp, ← List.append_assoc]; exact h3
    · by_cases ht : t = []
      · subst ht
        obtain ⟨q, hq, hr1, a, b, h1, h2, h3⟩ := leaf_hereIn ns (before ++ n.text) around [] post (by simpa using hp.symm) hne
        refine ⟨q, by rw [placesIn]; exact List.mem_append_right _ hq, hr1, a, b, h1, h2, ?_⟩
        rw [List.append_nil] at hl h3
        rw [← hl]; exact h3
      · obtain ⟨q, hq, hr⟩ := leaf_here n before around pre t hl ht
        exact ⟨q, by rw [placesIn]; exact List.mem_append_left _ hq, hr⟩
end

theorem tokens_mem {enc : Encoding} {doc : Text} {ps : List Place} {ts : List Token} (h : Tokens enc doc ps ts)
    {p : Place} (hp : p ∈ ps) (hu : ¬ Untold p) : ∃ t ∈ ts, IsToken enc doc p t := by
  induction h with
  | nil => cases hp
  | skip h _ ih =>
    rcases List.mem_cons.mp hp with rfl | hp
    · exact absurd h hu
    · exact ih hp
  | token h _ ih =>
    rcases List.mem_cons.mp hp with rfl | hp
    · exact ⟨_, by simp, h⟩
    · obtain ⟨t, ht, hi⟩ := ih hp
      exact ⟨t, List.mem_cons_of_mem _ ht, hi⟩

/-- **C154.** No character is left out: each one is within a leaf that has a token. -/
theorem every_character (enc : Encoding) (root : Node) (pre : Text) (c : Char) (post : Text)
    (h : root.text = pre ++ c :: post) :
    ∃ ts p t a b, full enc root = some ts ∧ p ∈ places [] [] root ∧
      t ∈ decode legend.1 legend.2 (0, 0) ts ∧ IsToken enc root.text p t ∧
      IsLeaf p.node ∧ p.node.text = a ++ c :: b ∧ pre = p.before ++ a := by
  obtain ⟨ts, h1, h2⟩ := tokens_of_document_partial enc root
  obtain ⟨q, hq, hl, a, b, e1, hb, e2⟩ := leaf_here root [] [] pre (c :: post) h (by simp)
  obtain ⟨t, ht, hi⟩ := tokens_mem h2 hq (fun hu => hu.2 hl)
  have hin := (place_in root [] [] q hq).2
  rw [List.nil_append] at e2 hin
  obtain ⟨r, hr⟩ := hin
  rw [e1, h, e2] at hr
  obtain ⟨d, b', rfl⟩ := List.exists_cons_of_ne_nil hb
  have : d = c := by
    have : (d :: b') ++ r = c :: post := by
      apply List.append_cancel_left (as := q.before ++ a)
      simpa using hr
    simp at this
    exact this.1
  subst this
  exact ⟨ts, q, t, a, b', h1, hq, ht, hi, hl, e1, e2⟩

/-- **C154, refuted.** Tokens overlap: if a node with parts has a token of its own, say a heading, every character
of it is within that token and within that of a leaf, which is another. -/
theorem overlap (enc : Encoding) (root : Node) (p : Place) (hp : p ∈ places [] [] root) (hin : ¬ IsLeaf p.node)
    (name : String) (hn : HasName p.node.info p.around.head? name) (pre : Text) (c : Char) (post : Text)
    (h : p.node.text = pre ++ c :: post) :
    ∃ ts q t u a b, full enc root = some ts ∧ q ∈ places [] [] root ∧ q.node ≠ p.node ∧
      q.node.text = a ++ b ∧ b ≠ [] ∧ p.before ++ pre = q.before ++ a ∧
      t ∈ decode legend.1 legend.2 (0, 0) ts ∧ IsToken enc root.text p t ∧
      u ∈ decode legend.1 legend.2 (0, 0) ts ∧ IsToken enc root.text q u := by
  obtain ⟨ts, h1, h2⟩ := tokens_of_document_partial enc root
  obtain ⟨q, hq, hl, a, b, e1, hb, e2⟩ := leaf_here p.node p.before p.around pre (c :: post) h (by simp)
  have hq' := sub_places root [] [] p hp q hq
  obtain ⟨t, ht, hi⟩ := tokens_mem h2 hp (fun hu => hu.1 ⟨name, hn⟩)
  obtain ⟨u, hu, hj⟩ := tokens_mem h2 hq' (fun hu => hu.2 hl)
  exact ⟨ts, q, t, u, a, b, h1, hq', fun e => hin (e ▸ hl), e1, hb, e2, ht, hi, hu, hj⟩

/-- A heading: `= A` gives a token over all three characters and one over each of its parts. -/
example : full .utf16 (.inner ⟨.heading, none, none⟩ [.leaf ⟨.headingMarker, none, none⟩ "=".toList,
      .leaf ⟨.other, none, none⟩ " ".toList, .leaf ⟨.other, none, none⟩ "A".toList]) =
    some [⟨0, 0, 3, 14, 0⟩, ⟨0, 0, 1, 14, 0⟩, ⟨0, 1, 1, 20, 0⟩, ⟨0, 1, 1, 20, 0⟩] := by decide +kernel

/-- **C154, refuted.** Even if bytes are asked for, lengths are those of UTF-16: the length of a token is never that
of its bytes if there is a character outside of ASCII in it. -/
theorem length_not_bytes (root : Node) (p : Place) (t : Token) (h : IsToken .utf8 root.text p t) (c : Char)
    (hc : c ∈ p.node.text) (hbig : 1 < c.utf8Size) : t.length < len8 p.node.text := by
  rw [h.2.1]
  have e8 : ∀ c : Char, c.utf8Size = if c.toNat ≤ 127 then 1 else if c.toNat ≤ 2047 then 2 else if c.toNat ≤ 65535 then 3 else 4 :=
    fun c => by unfold Char.utf8Size; simp [UInt32.le_iff_toNat_le]
  have e16 : ∀ c : Char, u16 c = if c.toNat < 65536 then 1 else 2 :=
    fun c => by unfold u16; simp [UInt32.lt_iff_toNat_lt]
  have hle : ∀ c : Char, u16 c ≤ c.utf8Size := fun c => by
    rw [e8, e16]
    repeat' split
    all_goals omega
  have hlt : ∀ c : Char, 1 < c.utf8Size → u16 c < c.utf8Size := fun c => by
    rw [e8, e16]
    repeat' split
    all_goals omega
  have hall : ∀ s : Text, len16 s ≤ len8 s := fun s => by
    induction s with
    | nil => exact Nat.le_refl _
    | cons d s ih => rw [len16_cons, len8_cons]; have := hle d; omega
  obtain ⟨a, b, e⟩ := List.append_of_mem hc
  rw [e, len16_append, len8_append, len16_cons, len8_cons]
  have := hlt c hbig
  have := hall a
  have := hall b
  omega

/-- `é` has two bytes, and a token of length 1; strong text within emphasis has both styles. -/
example : full .utf8 (.leaf ⟨.other, none, none⟩ "é".toList) = some [⟨0, 0, 1, 20, 0⟩] ∧
    full .utf16 (.inner ⟨.emph, none, none⟩ [.inner ⟨.strong, none, none⟩ [.leaf ⟨.other, none, none⟩ "a".toList]]) =
      some [⟨0, 0, 1, 20, 3⟩] := by decide +kernel

end Tinymist.WebTokens
