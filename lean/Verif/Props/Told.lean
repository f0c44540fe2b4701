import Verif.Spec.Told

/-!
# Hovering shows what is known, in order (C188)
-/

namespace Tinymist.Told

theorem joined_join (sep : Text) : ∀ (l : List Text), l ≠ [] → Joined sep l (join sep l)
  | [], h => absurd rfl h
  | [a], _ => by rw [join]; exact .one
  | a :: b :: rest, _ => by
    rw [join]
    · exact .more (joined_join sep (b :: rest) (by simp))
    · simp

theorem joined_eq {sep : Text} {l : List Text} {t : Text} (h : Joined sep l t) : t = join sep l ∧ l ≠ [] := by
  induction h with
  | one => exact ⟨by rw [join], by simp⟩
  | more _ ih =>
    refine ⟨?_, by simp⟩
    rw [join, ih.1]
    simp

theorem line_eq {n : Text} {docs : Option Docs} {t : Text} (h : Line n docs t) : typeLine n docs = t := by
  cases h with
  | bare h1 h2 =>
    unfold typeLine
    split
    · exact absurd rfl (h1 _ _)
    · exact absurd rfl (h2 _ _ _)
    · simp
  | @untyped t h' h1 =>
    cases t with
    | none => simp [typeLine, resultTy]
    | some s => simp [typeLine, resultTy, h1 s rfl]
  | typed h1 => simp [typeLine, resultTy, h1]
  | @function q t h' h1 =>
    cases t with
    | none => simp [typeLine, resultTy]
    | some s => simp [typeLine, resultTy, h1 s rfl]
  | result h1 => simp [typeLine, resultTy, h1]

theorem linkParts_eq : ∀ (ls : List (Option Target)) (w : Parts), linkParts w ls =
    { w with
      defs := w.defs ++ (ls.filterMap fun l => l.bind fun t => t.kind).map fun k => "A `".toList ++ k ++ "` file.".toList
      actions := w.actions ++ ls.flatMap fun l => match l with | some t => [t.inTab, t.outside] | none => [] }
  | [], w => by simp [linkParts]
  | none :: rest, w => by
    rw [linkParts, linkParts_eq rest w]
    simp
  | some t :: rest, w => by
    rw [linkParts]
    dsimp only
    cases hk : t.kind with
    | none =>
      dsimp only
      rw [linkParts_eq rest]
      simp [hk]
    | some k =>
      dsimp only
      rw [linkParts_eq rest]
      simp [hk]

theorem typed_iff (k : DefKind) (n : Text) : Typed k n ↔ (k = .function ∨ k = .variable_ ∨ k = .constant) ∧ n ≠ [] := by
  simp [Typed]

theorem white_iff (c : Char) : white c = true ↔ c.toNat ∈ spaces := by
  unfold white spaces
  generalize c.toNat = n
  simp only [Bool.or_eq_true, Bool.and_eq_true, decide_eq_true_eq, beq_iff_eq, List.mem_cons, List.not_mem_nil, or_false]
  omega

theorem blank_false {t : Text} (h : ∃ c ∈ t, c.toNat ∉ spaces) : blank t = false := by
  obtain ⟨c, hc, hw⟩ := h
  rw [← white_iff, Bool.not_eq_true] at hw
  unfold blank
  rw [List.all_eq_false]
  exact ⟨c, hc, by simp [hw]⟩

theorem blank_true {t : Text} (h : ∀ c ∈ t, c.toNat ∈ spaces) : blank t = true := by
  unfold blank
  rw [List.all_eq_true]
  exact fun c hc => (white_iff c).2 (h c hc)

theorem rest_eq {l : List Text} {t : Text} (h : Rest l t) : listTail "and".toList l = t := by
  induction h with
  | last => simp [listTail]
  | next _ ih => rw [listTail, ih]; simp

theorem rest_exists : ∀ (b : Text) (l : List Text), ∃ t, Rest (b :: l) t
  | b, [] => ⟨_, .last⟩
  | b, c :: r => by
    obtain ⟨t, h⟩ := rest_exists c r
    exact ⟨_, .next h⟩

theorem enumerated_eq {l : List Text} {t : Text} (h : Enumerated l t) : separated "and".toList l = t := by
  cases h with
  | none => rfl
  | one => rfl
  | two => simp [separated]
  | many h => simp [separated, ← rest_eq h]

theorem enumerated_exists (l : List Text) : ∃ t, Enumerated l t := by
  match l with
  | [] => exact ⟨_, .none⟩
  | [a] => exact ⟨_, .one⟩
  | [a, b] => exact ⟨_, .two⟩
  | a :: b :: c :: r =>
    obtain ⟨t, h⟩ := rest_exists b (c :: r)
    exact ⟨_, .many h⟩

theorem ordered_sort (names : List Text) : Ordered names (names.mergeSort nameLe) := by
  refine ⟨List.mergeSort_perm .., ?_⟩
  have := List.pairwise_mergeSort (le := nameLe) (fun a b c h1 h2 => by
    unfold nameLe at *
    simp only [decide_eq_true_eq] at *
    exact List.le_trans h1 h2) (fun a b => by
    unfold nameLe
    simp only [Bool.or_eq_true, decide_eq_true_eq]
    exact List.le_total a b) names
  exact this.imp fun h => by
    unfold nameLe at h
    simpa using h

theorem ordered_eq {names sorted : List Text} (h : Ordered names sorted) : names.mergeSort nameLe = sorted := by
  have h' := ordered_sort names
  exact List.Perm.eq_of_pairwise (fun a b _ _ h1 h2 => List.le_antisymm h1 h2) h'.2 h.2 (h'.1.trans h.1.symm)

theorem star_eq {names sorted : List Text} {t : Text} (ho : Ordered names sorted) (he : Enumerated sorted t) :
    starText names = "This star imports ".toList ++ t := by
  unfold starText
  rw [ordered_eq ho, enumerated_eq he]

theorem static_docs (p : Place) (w : Parts) : (static p w).value = w.value ∧ (static p w).preview = w.preview := by
  unfold static
  split
  · unfold define
    split
    · exact ⟨rfl, rfl⟩
    · exact ⟨rfl, rfl⟩
    · exact ⟨rfl, rfl⟩
    · exact ⟨rfl, rfl⟩
    · dsimp only
      repeat' split
      all_goals exact ⟨rfl, rfl⟩
  · split
    · exact ⟨rfl, rfl⟩
    · split
      · rw [linkParts_eq]; exact ⟨rfl, rfl⟩
      · exact ⟨rfl, rfl⟩

theorem head_eq {p : Place} {h : List Text} (hh : Head p h) : (static p {}).defs = h := by
  cases hh with
  | ref hd => simp only [static, hd, define, List.nil_append]
  | label hd => simp only [static, hd, define, List.nil_append]
  | cited hd => simp only [static, hd, define, List.nil_append]
  | entry hd => simp only [static, hd, define, List.nil_append]
  | @typed k n docs link t hd ht hl =>
    rw [typed_iff] at ht
    simp only [static, hd, define, if_pos ht, line_eq hl]
    repeat' split
    all_goals rfl
  | @untyped k n docs link hd ht =>
    rw [typed_iff] at ht
    simp only [static, hd, define, if_neg ht]
    repeat' split
    all_goals rfl
  | @star names sorted t hd hs ho he =>
    have h1 : (static p {}).defs = [starText names] := by
      unfold static
      rw [hd, hs]
      rfl
    rw [h1, star_eq ho he]
  | links hd hs hl => simp [static, hd, hs, hl, linkParts_eq]
  | nothing hd hs hl => simp [static, hd, hs, hl]

theorem documented_eq {p : Place} {d : List Text} (hh : Documented p d) : (static p {}).docs = d := by
  cases hh with
  | @text k n d link hd ht =>
    simp only [static, hd, define, blank_false ht]
    repeat' split
    all_goals first | rfl | contradiction
  | nothing hn =>
    unfold static
    split
    · rename_i d hd
      unfold define
      split
      · rfl
      · rfl
      · rfl
      · rfl
      · rename_i k n docs link
        dsimp only
        cases docs with
        | none =>
          dsimp only
          repeat' split
          all_goals rfl
        | some dd =>
          simp only [blank_true (hn k n dd link hd), if_true]
          repeat' split
          all_goals rfl
    · split
      · rfl
      · split
        · rw [linkParts_eq]
        · rfl

theorem actions_eq {p : Place} {a : List Text} (hh : Actions p a) : (static p {}).actions = a := by
  cases hh with
  | @link k n docs l hd =>
    simp only [static, hd, define]
    repeat' split
    all_goals rfl
  | @defined d hd hn =>
    simp only [static, hd]
    unfold define
    split
    · rfl
    · rfl
    · rfl
    · rfl
    · rename_i k n docs link
      cases link with
      | some l => exact absurd rfl (hn k n docs l)
      | none =>
        dsimp only
        repeat' split
        all_goals rfl
  | star hd hs => simp [static, hd, hs]
  | links hd hs hl =>
    simp [static, hd, hs, hl, linkParts_eq]
    rfl
  | nothing hd hs hl => simp [static, hd, hs, hl]

theorem value_eq {p : Place} {v : List Text} (hv : Value p v) (w : Parts) (hw : w.value = []) : (dynamic p w).value = v := by
  cases hv with
  | text h => simp [dynamic, h, hw]
  | code h => simp [dynamic, h, hw]
  | nothing h => simp [dynamic, h, hw]

theorem work_parts {p : Place} {h v d a : List Text} (hh : Head p h) (hv : Value p v) (hd : Documented p d) (ha : Actions p a) :
    work p = ⟨h, v, p.preview.toList, d, a⟩ := by
  have h1 := head_eq hh
  have h2 := documented_eq hd
  have h3 := actions_eq ha
  obtain ⟨h4, h5⟩ := static_docs p {}
  unfold work
  generalize static p {} = w at *
  obtain ⟨wd, wv, wp, wo, wa⟩ := w
  simp only at h1 h2 h3 h4 h5
  subst h1 h2 h3 h4 h5
  have hp : previewed p ⟨wd, [], [], wo, wa⟩ = ⟨wd, [], p.preview.toList, wo, wa⟩ := by
    unfold previewed
    cases p.preview <;> rfl
  rw [hp]
  cases hv with
  | text h => simp [dynamic, h]
  | code h => simp [dynamic, h]
  | nothing h => simp [dynamic, h]

/-- **C188.** What is shown: what is said first, then the value, the preview, the documentation and the actions, with bars between them; nothing is
shown if there is nothing to say. -/
theorem shown {p : Place} {h v d a l : List Text} (hh : Head p h) (hv : Value p v) (hd : Documented p d) (ha : Actions p a) (hl : ActionLine a l)
    (t : Option Text) :
    hover p = t ↔ (t = none ∧ h ++ v ++ p.preview.toList ++ d ++ l = []) ∨
      ∃ s, t = some s ∧ Joined "\n\n---\n\n".toList (h ++ v ++ p.preview.toList ++ d ++ l) s := by
  have hl' : (if a = [] then [] else [join " | ".toList a]) = l := by
    cases hl with
    | none => rfl
    | some hj =>
      obtain ⟨h1, h2⟩ := joined_eq hj
      rw [if_neg h2, h1]
  unfold hover
  rw [work_parts hh hv hd ha]
  dsimp only
  rw [hl']
  generalize h ++ v ++ p.preview.toList ++ d ++ l = all
  by_cases he : all = []
  · subst he
    rw [if_pos rfl]
    constructor
    · rintro rfl; exact .inl ⟨rfl, rfl⟩
    · rintro (⟨rfl, -⟩ | ⟨s, rfl, hs⟩)
      · rfl
      · exact absurd rfl (joined_eq hs).2
  · rw [if_neg he]
    constructor
    · rintro rfl; exact .inr ⟨_, rfl, joined_join _ _ he⟩
    · rintro (⟨-, h⟩ | ⟨s, rfl, hs⟩)
      · exact absurd h he
      · rw [(joined_eq hs).1]

/-- There is always one way to say all this. -/
theorem parts_exist (p : Place) : ∃ h v d a l, Head p h ∧ Value p v ∧ Documented p d ∧ Actions p a ∧ ActionLine a l := by
  have h1 : ∃ h, Head p h := by
    match hd : p.definition, hs : p.star, hl : p.links with
    | some (.label n (some v)), _, _ => exact ⟨_, .ref hd⟩
    | some (.label n none), _, _ => exact ⟨_, .label hd⟩
    | some (.bib n (some (c, i))), _, _ => exact ⟨_, .cited hd⟩
    | some (.bib n none), _, _ => exact ⟨_, .entry hd⟩
    | some (.other k n docs link), _, _ =>
      by_cases ht : Typed k n
      · have : ∃ t, Line n docs t := by
          match docs with
          | none => exact ⟨_, .bare (by simp) (by simp)⟩
          | some (.other h) => exact ⟨_, .bare (by simp) (by simp)⟩
          | some (.variable_ none h) => exact ⟨_, .untyped (by simp)⟩
          | some (.variable_ (some s) h) =>
            by_cases e : s = n
            · exact ⟨_, .untyped (by simpa using e)⟩
            · exact ⟨_, .typed e⟩
          | some (.function q none h) => exact ⟨_, .function (by simp)⟩
          | some (.function q (some s) h) =>
            by_cases e : s = n
            · exact ⟨_, .function (by simpa using e)⟩
            · exact ⟨_, .result e⟩
        obtain ⟨t, h⟩ := this
        exact ⟨_, .typed hd ht h⟩
      · exact ⟨_, .untyped hd ht⟩
    | none, some names, _ =>
      obtain ⟨t, ht⟩ := enumerated_exists (names.mergeSort nameLe)
      exact ⟨_, .star hd hs (ordered_sort names) ht⟩
    | none, none, some ls => exact ⟨_, .links hd hs hl⟩
    | none, none, none => exact ⟨_, .nothing hd hs hl⟩
  have h2 : ∃ v, Value p v := by
    match ht : p.tip with
    | some (.text t) => exact ⟨_, .text ht⟩
    | some (.code t) => exact ⟨_, .code ht⟩
    | none => exact ⟨_, .nothing ht⟩
  have h3 : ∃ d, Documented p d := by
    by_cases h : ∃ k n d link, p.definition = some (.other k n (some d) link) ∧ ∃ c ∈ d.hover, c.toNat ∉ spaces
    · obtain ⟨k, n, d, link, h, hc⟩ := h
      exact ⟨_, .text h hc⟩
    · refine ⟨_, .nothing fun k n d link hd c hc => ?_⟩
      by_cases hw : c.toNat ∈ spaces
      · exact hw
      · exact absurd ⟨k, n, d, link, hd, c, hc, hw⟩ h
  have h4 : ∃ a, Actions p a := by
    match hd : p.definition, hs : p.star, hl : p.links with
    | some (.label n v), _, _ => exact ⟨_, .defined hd (by simp)⟩
    | some (.bib n v), _, _ => exact ⟨_, .defined hd (by simp)⟩
    | some (.other k n docs none), _, _ => exact ⟨_, .defined hd (by simp)⟩
    | some (.other k n docs (some l)), _, _ => exact ⟨_, .link hd⟩
    | none, some names, _ => exact ⟨_, .star hd hs⟩
    | none, none, some ls => exact ⟨_, .links hd hs hl⟩
    | none, none, none => exact ⟨_, .nothing hd hs hl⟩
  obtain ⟨h, h1⟩ := h1
  obtain ⟨v, h2⟩ := h2
  obtain ⟨d, h3⟩ := h3
  obtain ⟨a, h4⟩ := h4
  by_cases e : a = []
  · exact ⟨h, v, d, a, [], h1, h2, h3, h4, e ▸ .none⟩
  · exact ⟨h, v, d, a, _, h1, h2, h3, h4, .some (joined_join _ a e)⟩

/-! ## Names of a star -/

/-- What ends a name is found in a text. -/
theorem clean_split : ∀ {u v : Text} {c d : Char} {x y : Text}, Clean u → Clean v → (c = ' ' ∨ c = ',') → (d = ' ' ∨ d = ',') →
    u ++ c :: x = v ++ d :: y → u = v ∧ c = d ∧ x = y
  | [], [], _, _, _, _, _, _, _, _, h => by simpa using h
  | [], e :: v, c, d, x, y, _, hv, hc, _, h => by
    simp only [List.nil_append, List.cons_append, List.cons.injEq] at h
    obtain ⟨rfl, -⟩ := h
    rcases hc with rfl | rfl
    · exact absurd (List.mem_cons_self ..) hv.1
    · exact absurd (List.mem_cons_self ..) hv.2
  | e :: u, [], c, d, x, y, hu, _, _, hd, h => by
    simp only [List.nil_append, List.cons_append, List.cons.injEq] at h
    obtain ⟨rfl, -⟩ := h
    rcases hd with rfl | rfl
    · exact absurd (List.mem_cons_self ..) hu.1
    · exact absurd (List.mem_cons_self ..) hu.2
  | e :: u, f :: v, c, d, x, y, hu, hv, hc, hd, h => by
    simp only [List.cons_append, List.cons.injEq] at h
    obtain ⟨rfl, h⟩ := h
    obtain ⟨rfl, h2, h3⟩ := clean_split (u := u) (v := v) ⟨fun h => hu.1 (List.mem_cons_of_mem _ h), fun h => hu.2 (List.mem_cons_of_mem _ h)⟩
      ⟨fun h => hv.1 (List.mem_cons_of_mem _ h), fun h => hv.2 (List.mem_cons_of_mem _ h)⟩ hc hd h
    exact ⟨rfl, h2, h3⟩

theorem clean_end {u v : Text} {d : Char} {y : Text} (hu : Clean u) (hd : d = ' ' ∨ d = ',') : u ≠ v ++ d :: y := by
  rintro rfl
  rcases hd with rfl | rfl
  · exact hu.1 (by simp)
  · exact hu.2 (by simp)

theorem clean_and : Clean "and".toList := by
  constructor <;> decide

theorem tail_one (z : Text) : listTail "and".toList [z] = ',' :: ' ' :: ("and".toList ++ ' ' :: z) := by
  simp [listTail]

theorem tail_more (b c : Text) (r : List Text) : listTail "and".toList (b :: c :: r) = ',' :: ' ' :: (b ++ listTail "and".toList (c :: r)) := by
  simp [listTail]

theorem tail_head (c : Text) (r : List Text) : ∃ x, listTail "and".toList (c :: r) = ',' :: x := by
  cases r with
  | nil => exact ⟨_, tail_one c⟩
  | cons d r => exact ⟨_, tail_more c d r⟩

theorem tail_inj : ∀ {l m : List Text}, l ≠ [] → m ≠ [] → (∀ n ∈ l, Clean n) → (∀ n ∈ m, Clean n) →
    listTail "and".toList l = listTail "and".toList m → l = m
  | [], _, h, _, _, _, _ => absurd rfl h
  | _, [], _, h, _, _, _ => absurd rfl h
  | [z], [z'], _, _, _, _, h => by
    rw [tail_one, tail_one] at h
    simp only [List.cons.injEq, true_and] at h
    simpa using h
  | [z], b :: c :: r, _, _, hl, hm, h => by
    rw [tail_one, tail_more] at h
    obtain ⟨x, hx⟩ := tail_head c r
    simp only [List.cons.injEq, true_and, hx] at h
    obtain ⟨-, h, -⟩ := clean_split clean_and (hm b (List.mem_cons_self ..)) (.inl rfl) (.inr rfl) h
    cases h
  | b :: c :: r, [z], _, _, hl, hm, h => by
    rw [tail_one, tail_more] at h
    obtain ⟨x, hx⟩ := tail_head c r
    simp only [List.cons.injEq, true_and, hx] at h
    obtain ⟨-, h, -⟩ := clean_split (hl b (List.mem_cons_self ..)) clean_and (.inr rfl) (.inl rfl) h
    cases h
  | b :: c :: r, b' :: c' :: r', _, _, hl, hm, h => by
    rw [tail_more, tail_more] at h
    obtain ⟨x, hx⟩ := tail_head c r
    obtain ⟨x', hx'⟩ := tail_head c' r'
    simp only [List.cons.injEq, true_and] at h
    rw [hx, hx'] at h
    obtain ⟨rfl, -, h2⟩ := clean_split (hl b (List.mem_cons_self ..)) (hm b' (List.mem_cons_self ..)) (.inr rfl) (.inr rfl) h
    rw [tail_inj (l := c :: r) (m := c' :: r') (by simp) (by simp) (fun n hn => hl n (List.mem_cons_of_mem _ hn))
      (fun n hn => hm n (List.mem_cons_of_mem _ hn)) (by rw [hx, hx', h2])]

theorem separated_many (a b c : Text) (r : List Text) : separated "and".toList (a :: b :: c :: r) = a ++ listTail "and".toList (b :: c :: r) := by
  simp [separated]

theorem separated_two (a b : Text) : separated "and".toList [a, b] = a ++ ' ' :: ("and".toList ++ ' ' :: b) := by
  simp [separated]

/-- What names are listed as determines them. -/
theorem separated_inj {l m : List Text} (hl : ∀ n ∈ l, Clean n ∧ n ≠ []) (hm : ∀ n ∈ m, Clean n ∧ n ≠ [])
    (h : separated "and".toList l = separated "and".toList m) : l = m := by
  match l, m with
  | [], [] => rfl
  | [], [a] => exact absurd h.symm (hm a (by simp)).2
  | [], [a, b] => rw [separated_two] at h; simp [separated] at h
  | [], a :: b :: c :: r =>
    rw [separated_many, tail_more] at h
    simp [separated] at h
  | [a], [] => exact absurd h (hl a (by simp)).2
  | [a, b], [] => rw [separated_two] at h; simp [separated] at h
  | a :: b :: c :: r, [] =>
    rw [separated_many, tail_more] at h
    simp [separated] at h
  | [a], [a'] => exact congrArg (fun x => [x]) h
  | [a], [a', b'] =>
    rw [separated_two] at h
    exact absurd h (clean_end (hl a (by simp)).1 (.inl rfl))
  | [a], a' :: b' :: c' :: r' =>
    rw [separated_many, tail_more] at h
    exact absurd h (clean_end (hl a (by simp)).1 (.inr rfl))
  | [a, b], [a'] =>
    rw [separated_two] at h
    exact absurd h.symm (clean_end (hm a' (by simp)).1 (.inl rfl))
  | a :: b :: c :: r, [a'] =>
    rw [separated_many, tail_more] at h
    exact absurd h.symm (clean_end (hm a' (by simp)).1 (.inr rfl))
  | [a, b], [a', b'] =>
    rw [separated_two, separated_two] at h
    obtain ⟨rfl, -, h⟩ := clean_split (hl a (by simp)).1 (hm a' (by simp)).1 (.inl rfl) (.inl rfl) h
    simpa using h
  | [a, b], a' :: b' :: c' :: r' =>
    rw [separated_two, separated_many, tail_more] at h
    obtain ⟨-, h, -⟩ := clean_split (hl a (by simp)).1 (hm a' (by simp)).1 (.inl rfl) (.inr rfl) h
    cases h
  | a :: b :: c :: r, [a', b'] =>
    rw [separated_two, separated_many, tail_more] at h
    obtain ⟨-, h, -⟩ := clean_split (hl a (by simp)).1 (hm a' (by simp)).1 (.inr rfl) (.inl rfl) h
    cases h
  | a :: b :: c :: r, a' :: b' :: c' :: r' =>
    rw [separated_many, separated_many] at h
    obtain ⟨x, hx⟩ := tail_head b (c :: r)
    obtain ⟨x', hx'⟩ := tail_head b' (c' :: r')
    rw [hx, hx'] at h
    obtain ⟨rfl, -, h2⟩ := clean_split (hl a (by simp)).1 (hm a' (by simp)).1 (.inr rfl) (.inr rfl) h
    rw [tail_inj (l := b :: c :: r) (m := b' :: c' :: r') (by simp) (by simp) (fun n hn => (hl n (List.mem_cons_of_mem _ hn)).1)
      (fun n hn => (hm n (List.mem_cons_of_mem _ hn)).1) (by rw [hx, hx', h2])]

/-- **C188.** What is said about a star tells which names it imports: modules of which the same is said have the same names. -/
theorem star_tells {l m sl sm : List Text} {t : Text} (hl : ∀ n ∈ l, Clean n ∧ n ≠ []) (hm : ∀ n ∈ m, Clean n ∧ n ≠ []) (ol : Ordered l sl)
    (om : Ordered m sm) (el : Enumerated sl t) (em : Enumerated sm t) : l.Perm m := by
  have h2 := separated_inj (fun n hn => hl n (ol.1.mem_iff.1 hn)) (fun n hn => hm n (om.1.mem_iff.1 hn)) ((enumerated_eq el).trans (enumerated_eq em).symm)
  exact ol.1.symm.trans (h2 ▸ om.1)

/-! ## What is not shown -/

/-- At a place with a definition nothing is said about the star and the links there, even if there is nothing to say about the definition. -/
theorem definition_hides (d : Def) (star star' : Option (List Text)) (links links' : Option (List (Option Target))) (preview : Option Text)
    (tip : Option Tip) : hover ⟨some d, star, links, preview, tip⟩ = hover ⟨some d, star', links', preview, tip⟩ := rfl

/-- A link at a place where a module is defined, that has no documentation, is not offered. -/
theorem module_hides (n : Text) (t : Target) :
    hover ⟨some (.other .module_ n none none), none, some [some t], none, none⟩ = none ∧ hover ⟨none, none, some [some t], none, none⟩ ≠ none := by
  refine ⟨by simp [hover, work, static, define, dynamic, previewed], ?_⟩
  simp [hover, work, static, linkParts_eq, dynamic, previewed]

/-! ## Examples -/

/-- `f`, which is documented, with a link. -/
def example1 : Place :=
  ⟨some (.other .function ['f'] (some (.function "(x)".toList (some "int".toList) "Adds.".toList)) (some "[docs]".toList)), none, none, none,
    some (.code ['1'])⟩

example : hover example1 = some ("```typc\nlet f(x) = int;\n```\n\n---\n\n### Sampled Values\n```typc\n1\n```\n\n---\n\nAdds.\n\n---\n\n[docs]".toList) := by
  decide +kernel

example : Head example1 ["```typc\nlet f(x) = int;\n```".toList] :=
  .typed (t := "let f(x) = int".toList) rfl ⟨by decide, by decide⟩ (.result (q := "(x)".toList) (s := "int".toList) (by decide))

example : Documented example1 ["Adds.".toList] :=
  .text (k := .function) (n := ['f']) (d := .function "(x)".toList (some "int".toList) "Adds.".toList) rfl ⟨'A', by decide +kernel, by decide⟩

example : Ordered [['b'], ['c'], ['a']] [['a'], ['b'], ['c']] := by
  refine ⟨?_, by decide⟩
  exact (List.perm_append_comm (l₁ := [['a']]) (l₂ := [['b'], ['c']]))

example : Enumerated [['a'], ['b'], ['c']] "a, b, and c".toList := .many (.next .last)

end Tinymist.Told
